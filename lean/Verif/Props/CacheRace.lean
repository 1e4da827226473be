import Verif.Model.CacheRace
import Mathlib.Data.List.Basic
import Mathlib.Tactic

/-
C116: the cache of the projectors under every schedule of the processes that save it and every point at which they are
killed.
-/
namespace Jrystal

/-- The last byte written at position `p` by a sequence of writes. -/
def Spec.lastWritten (w : List (ℕ × UInt8)) (p : ℕ) : Option UInt8 :=
  ((w.filter fun e => e.1 = p).getLast?).map Prod.snd

/-- The file that a sequence of writes leaves when it starts from an empty file: it reaches to the last position that
was written, and at each position it holds the byte that was written there last, or zero. -/
def Spec.Image (w : List (ℕ × UInt8)) (f : List UInt8) : Prop :=
  ∀ p : ℕ, ((∃ e ∈ w, p ≤ e.1) → f[p]? = some ((Spec.lastWritten w p).getD 0)) ∧ ((¬∃ e ∈ w, p ≤ e.1) → f[p]? = none)

/-- What a user may expect of numpy: the file of a saved list is read as that list. -/
def Spec.NpzReads {A : Type*} (F : NpzFormat A) : Prop := ∀ x f, Spec.Image (F.writes x) f → F.decode f = .ok x

/-- And what a checksum is for: only the file of a list is read as that list. -/
def Spec.NpzChecks {A : Type*} (F : NpzFormat A) : Prop := ∀ x f, F.decode f = .ok x → Spec.Image (F.writes x) f

/-- The call has returned. -/
def SavePoint.Returned (s : SavePoint) : Prop := s = .writing []

/-- The call has ended, with or without an exception. -/
def SavePoint.Ended (s : SavePoint) : Prop := s = .writing [] ∨ ∃ e, s = .raised e

/-- The call is not between the opening of the file and its end: it has ended, or it has not opened the file (and may
have been killed there). -/
def SavePoint.Outside (s : SavePoint) : Prop := ∀ rest, s = .writing rest → rest = []

private def content (w : List (ℕ × UInt8)) : List UInt8 := w.foldl writeByte []

private theorem content_snoc (w : List (ℕ × UInt8)) (b : ℕ × UInt8) : content (w ++ [b]) = writeByte (content w) b := by
  simp [content]

private theorem writeByte_get (f : List UInt8) (b : ℕ × UInt8) (p : ℕ) :
    (writeByte f b)[p]? = if p = b.1 then some b.2 else if p < f.length then f[p]? else if p < b.1 then some 0 else none := by
  unfold writeByte
  split_ifs with h1 h2 h3 h4 h5 h6
  · subst h2; rw [List.getElem?_set_self h1]
  · rw [List.getElem?_set_ne (Ne.symm h2)]
  · omega
  · rw [List.getElem?_set_ne (Ne.symm h2)]; exact List.getElem?_eq_none (by omega)
  · subst h5
    have hl : (f ++ List.replicate (b.1 - f.length) 0).length = b.1 := by simp; omega
    rw [List.getElem?_append_right hl.le, hl]
    simp
  · rw [List.append_assoc, List.getElem?_append_left h6]
  · rw [List.append_assoc, List.getElem?_append_right (by omega), List.getElem?_append_left (by simp; omega)]
    rw [List.getElem?_replicate, if_pos (by omega)]
  · exact List.getElem?_eq_none (by simp; omega)

private theorem content_image (w : List (ℕ × UInt8)) : Spec.Image w (content w) := by
  induction w using List.reverseRecOn with
  | nil => intro p; simp [content]
  | append_singleton w b ih =>
    intro p
    rw [content_snoc, writeByte_get]
    have hlen : p < (content w).length ↔ ∃ e ∈ w, p ≤ e.1 := by
      constructor
      · intro h
        by_contra hne
        have := (ih p).2 hne
        rw [List.getElem?_eq_none_iff] at this
        omega
      · intro h
        have := (ih p).1 h
        by_contra hne
        rw [List.getElem?_eq_none (by omega)] at this
        cases this
    by_cases hp : p = b.1
    · subst hp
      rw [if_pos rfl]
      refine ⟨fun _ => ?_, fun h => absurd ⟨b, by simp, le_refl _⟩ h⟩
      simp [Spec.lastWritten]
    · rw [if_neg hp]
      have hlast : Spec.lastWritten (w ++ [b]) p = Spec.lastWritten w p := by
        simp [Spec.lastWritten, List.filter_append, Ne.symm hp]
      rw [hlast]
      by_cases hl : p < (content w).length
      · rw [if_pos hl]
        obtain ⟨e, he, hpe⟩ := hlen.1 hl
        exact ⟨fun _ => (ih p).1 ⟨e, he, hpe⟩, fun h => absurd ⟨e, by simp [he], hpe⟩ h⟩
      · rw [if_neg hl]
        have hno := mt hlen.2 hl
        have hz : Spec.lastWritten w p = none := by
          simp only [Spec.lastWritten, Option.map_eq_none_iff, List.getLast?_eq_none_iff, List.filter_eq_nil_iff]
          intro e he
          simp only [decide_eq_true_eq]
          intro h
          exact hno ⟨e, he, h.ge⟩
        split_ifs with hb
        · refine ⟨fun _ => by rw [hz]; rfl, fun h => absurd ⟨b, by simp, hb.le⟩ h⟩
        · refine ⟨fun ⟨e, he, hpe⟩ => ?_, fun _ => rfl⟩
          rcases List.mem_append.1 he with he | he
          · exact absurd ⟨e, he, hpe⟩ hno
          · rw [List.mem_singleton] at he; subst he; omega

private theorem image_unique {w : List (ℕ × UInt8)} {f g : List UInt8} (hf : Spec.Image w f) (hg : Spec.Image w g) :
    f = g := by
  apply List.ext_getElem?
  intro p
  by_cases h : ∃ e ∈ w, p ≤ e.1
  · rw [(hf p).1 h, (hg p).1 h]
  · rw [(hf p).2 h, (hg p).2 h]

/-- The actions since the file was opened last, with the process that made them. -/
private def Logged {n : ℕ} (w : Fin n → List (ℕ × UInt8)) (s : CacheSystem n) (log : List (Fin n × (ℕ × UInt8))) : Prop :=
  s.disk.file = some (content (log.map Prod.snd)) ∧
  (∃ o rest, s.at_ o = .writing rest ∧ w o = (log.filter fun e => e.1 = o).map Prod.snd ++ rest) ∧
  (∀ i rest, s.at_ i = .writing rest → ∃ pre, w i = pre ++ (log.filter fun e => e.1 = i).map Prod.snd ++ rest) ∧
  (∀ i, (∀ rest, s.at_ i ≠ .writing rest) → log.filter (fun e => e.1 = i) = [])

private def Fresh {n : ℕ} (s : CacheSystem n) : Prop := ∀ i rest, s.at_ i ≠ .writing rest

private theorem step_at_self {n : ℕ} (w : Fin n → List (ℕ × UInt8)) (s : CacheSystem n) (i : Fin n) :
    (s.step w i).at_ i = (saveAction (w i) s.disk (s.at_ i)).2 := by
  simp [CacheSystem.step]

private theorem step_at_ne {n : ℕ} (w : Fin n → List (ℕ × UInt8)) (s : CacheSystem n) {i j : Fin n} (h : j ≠ i) :
    (s.step w i).at_ j = s.at_ j := by
  simp [CacheSystem.step, h]

private theorem step_disk {n : ℕ} (w : Fin n → List (ℕ × UInt8)) (s : CacheSystem n) (i : Fin n) :
    (s.step w i).disk = (saveAction (w i) s.disk (s.at_ i)).1 := rfl

/-- An action that leaves the file alone. -/
private theorem logged_quiet {n : ℕ} (w : Fin n → List (ℕ × UInt8)) (s : CacheSystem n) (i : Fin n)
    (hold : ∀ rest, s.at_ i ≠ .writing rest) (hnew : ∀ rest, (s.step w i).at_ i ≠ .writing rest)
    (hfile : (s.step w i).disk.file = s.disk.file) (h : Fresh s ∨ ∃ log, Logged w s log) :
    Fresh (s.step w i) ∨ ∃ log, Logged w (s.step w i) log := by
  have hat : ∀ j rest, (s.step w i).at_ j = .writing rest ↔ s.at_ j = .writing rest := by
    intro j rest
    by_cases hj : j = i
    · subst hj; exact iff_of_false (hnew rest) (hold rest)
    · rw [step_at_ne w s hj]
  rcases h with h | ⟨log, h1, ⟨o, rest, h2, h2'⟩, h3, h4⟩
  · exact Or.inl fun j rest => by rw [Ne, hat]; exact h j rest
  · refine Or.inr ⟨log, by rw [hfile, h1], ⟨o, rest, (hat o rest).2 h2, h2'⟩,
      fun j rest hj => h3 j rest ((hat j rest).1 hj), fun j hj => h4 j fun rest hr => hj rest ((hat j rest).2 hr)⟩

private theorem logged_step {n : ℕ} (w : Fin n → List (ℕ × UInt8)) (s : CacheSystem n) (i : Fin n)
    (h : Fresh s ∨ ∃ log, Logged w s log) : Fresh (s.step w i) ∨ ∃ log, Logged w (s.step w i) log := by
  cases hs : s.at_ i with
  | check =>
    refine logged_quiet w s i (by simp [hs]) ?_ (by simp [step_disk, hs, saveAction]) h
    rw [step_at_self, hs]; intro rest; simp only [saveAction]; split_ifs <;> simp
  | mkdir =>
    refine logged_quiet w s i (by simp [hs]) ?_ (by simp only [step_disk, hs, saveAction]; split_ifs <;> rfl) h
    rw [step_at_self, hs]; intro rest; simp only [saveAction]; split_ifs <;> simp
  | raised e =>
    refine logged_quiet w s i (by simp [hs]) ?_ (by simp [step_disk, hs, saveAction]) h
    rw [step_at_self, hs]; intro rest; simp [saveAction]
  | opening =>
    cases hd : s.disk.dir with
    | false =>
      refine logged_quiet w s i (by simp [hs]) ?_ (by simp [step_disk, hs, saveAction, hd]) h
      rw [step_at_self, hs]; intro rest; simp [saveAction, hd]
    | true =>
      refine Or.inr ⟨[], by simp [step_disk, hs, saveAction, hd, content], ⟨i, w i, ?_, by simp⟩, ?_, by simp⟩
      · rw [step_at_self, hs]; simp [saveAction, hd]
      · intro j rest hj
        by_cases hji : j = i
        · subst hji
          rw [step_at_self, hs] at hj
          simp [saveAction, hd] at hj
          exact ⟨[], by simp [hj]⟩
        · rw [step_at_ne w s hji] at hj
          rcases h with h | ⟨log, -, -, h3, -⟩
          · exact absurd hj (h j rest)
          · obtain ⟨pre, hpre⟩ := h3 j rest hj
            exact ⟨pre ++ (log.filter fun e => e.1 = j).map Prod.snd, by simpa using hpre⟩
  | writing rest =>
    cases rest with
    | nil =>
      have : s.step w i = s := by
        unfold CacheSystem.step
        rw [hs]
        have : Function.update s.at_ i (.writing []) = s.at_ := by rw [← hs]; exact Function.update_eq_self i s.at_
        simp [saveAction, this]
      rw [this]; exact h
    | cons b rest =>
      rcases h with h | ⟨log, h1, ⟨o, ro, h2, h2'⟩, h3, h4⟩
      · exact absurd hs (h i _)
      · have hself : (s.step w i).at_ i = .writing rest := by rw [step_at_self, hs]; rfl
        refine Or.inr ⟨log ++ [(i, b)], ?_, ?_, ?_, ?_⟩
        · simp only [step_disk, hs, saveAction, h1, Option.getD_some, List.map_append, List.map_cons, List.map_nil,
            content_snoc]
        · by_cases ho : o = i
          · subst ho
            rw [hs] at h2
            obtain rfl := SavePoint.writing.inj h2
            exact ⟨o, rest, hself, by rw [h2']; simp [List.filter_append]⟩
          · refine ⟨o, ro, by rw [step_at_ne w s ho, h2], ?_⟩
            rw [h2']; simp [List.filter_append, Ne.symm ho]
        · intro j rj hj
          by_cases hji : j = i
          · subst hji
            rw [hself] at hj
            obtain rfl := SavePoint.writing.inj hj
            obtain ⟨pre, hpre⟩ := h3 j _ hs
            exact ⟨pre, by rw [hpre]; simp [List.filter_append]⟩
          · rw [step_at_ne w s hji] at hj
            obtain ⟨pre, hpre⟩ := h3 j _ hj
            exact ⟨pre, by rw [hpre]; simp [List.filter_append, Ne.symm hji]⟩
        · intro j hj
          by_cases hji : j = i
          · subst hji; exact absurd hself (hj rest)
          · have := h4 j fun r hr => hj r (by rw [step_at_ne w s hji, hr])
            rw [List.filter_append, this]
            simp [Ne.symm hji]

private theorem run_snoc {n : ℕ} (w : Fin n → List (ℕ × UInt8)) (s : CacheSystem n) (sched : List (Fin n)) (i : Fin n) :
    s.run w (sched ++ [i]) = (s.run w sched).step w i := by simp [CacheSystem.run]

private theorem run_append {n : ℕ} (w : Fin n → List (ℕ × UInt8)) (s : CacheSystem n) (a b : List (Fin n)) :
    s.run w (a ++ b) = (s.run w a).run w b := by simp [CacheSystem.run]

private theorem logged_run {n : ℕ} (w : Fin n → List (ℕ × UInt8)) (d : CacheDisk) (sched : List (Fin n)) :
    Fresh ((CacheSystem.start n d).run w sched) ∨ ∃ log, Logged w ((CacheSystem.start n d).run w sched) log := by
  induction sched using List.reverseRecOn with
  | nil => exact Or.inl (by intro i rest; simp [CacheSystem.run, CacheSystem.start])
  | append_singleton sched i ih => rw [run_snoc]; exact logged_step w _ i ih

private theorem lastWritten_suffix {w v : List (ℕ × UInt8)} {p : ℕ} (h : ∃ e ∈ v, e.1 = p) :
    Spec.lastWritten (w ++ v) p = Spec.lastWritten v p := by
  obtain ⟨e, he, hp⟩ := h
  unfold Spec.lastWritten
  rw [List.filter_append, List.getLast?_append_of_ne_nil]
  intro hn
  exact (List.filter_eq_nil_iff.1 hn e he) (by simp [hp])

/-- Positive part: when all processes save the same list, every schedule that leaves no process between the opening of
the file and its end, and in which some call has returned, leaves the file of that list, however the writes were
interleaved. -/
theorem saves_agree {A : Type*} (F : NpzFormat A) (hF : Spec.NpzReads F) {n : ℕ} (d : CacheDisk) (x : List A)
    (sched : List (Fin n))
    (hout : ∀ i, (((CacheSystem.start n d).run (fun _ => F.writes x) sched).at_ i).Outside)
    (hret : ∃ i, (((CacheSystem.start n d).run (fun _ => F.writes x) sched).at_ i).Returned) :
    (loadCache F ((CacheSystem.start n d).run (fun _ => F.writes x) sched).disk).2 = .ok x := by
  set s := (CacheSystem.start n d).run (fun _ => F.writes x) sched with hs
  rcases logged_run (fun _ => F.writes x) d sched with hf | ⟨log, h1, ⟨o, ro, h2, h2'⟩, h3, h4⟩
  · obtain ⟨i, hi⟩ := hret
    exact absurd hi (hf i [])
  rw [← hs] at h1 h2 h3 h4
  simp only [loadCache, h1]
  apply hF
  obtain rfl := hout o ro h2
  rw [List.append_nil] at h2'
  set W := F.writes x with hW
  beta_reduce at h2' h3
  have hsub : ∀ e ∈ log, e.2 ∈ W := by
    intro e he
    have hmem : e ∈ log.filter fun e' => e'.1 = e.1 := List.mem_filter.2 ⟨he, by simp⟩
    by_cases hw : ∃ rest, s.at_ e.1 = .writing rest
    · obtain ⟨rest, hr⟩ := hw
      obtain ⟨pre, hpre⟩ := h3 _ _ hr
      rw [hpre]
      simp only [List.mem_append, List.mem_map]
      exact Or.inl (Or.inr ⟨e, hmem, rfl⟩)
    · push Not at hw
      rw [h4 e.1 hw] at hmem
      cases hmem
  have hsup : ∀ b ∈ W, b ∈ log.map Prod.snd := by
    intro b hb
    rw [h2'] at hb
    obtain ⟨e, he, rfl⟩ := List.mem_map.1 hb
    exact List.mem_map.2 ⟨e, (List.mem_filter.1 he).1, rfl⟩
  have hiff : ∀ p, (∃ e ∈ W, p ≤ e.1) ↔ ∃ e ∈ log.map Prod.snd, p ≤ e.1 := by
    intro p
    constructor
    · rintro ⟨b, hb, hp⟩; exact ⟨b, hsup b hb, hp⟩
    · rintro ⟨b, hb, hp⟩
      obtain ⟨e, he, rfl⟩ := List.mem_map.1 hb
      exact ⟨e.2, hsub e he, hp⟩
  have hlast : ∀ p, Spec.lastWritten (log.map Prod.snd) p = Spec.lastWritten W p := by
    intro p
    by_cases hp : ∃ e ∈ log, e.2.1 = p
    · -- the last entry of the log at this position
      have hne : (log.filter fun e => e.2.1 = p) ≠ [] := by
        obtain ⟨e, he, hep⟩ := hp
        intro hn
        exact (List.filter_eq_nil_iff.1 hn e he) (by simp [hep])
      obtain ⟨m, e, hm⟩ : ∃ m e, (log.filter fun e => e.2.1 = p) = m ++ [e] :=
        ⟨_, _, (List.dropLast_append_getLast hne).symm⟩
      have he : e ∈ log ∧ e.2.1 = p := by
        have : e ∈ log.filter fun e => e.2.1 = p := by rw [hm]; simp
        simpa using List.mem_filter.1 this
      have hlog : Spec.lastWritten (log.map Prod.snd) p = some e.2.2 := by
        have : (log.map Prod.snd).filter (fun b => b.1 = p) = (log.filter fun e => e.2.1 = p).map Prod.snd := by
          rw [List.filter_map]; rfl
        simp [Spec.lastWritten, this, hm]
      have hmem : e ∈ log.filter fun e' => e'.1 = e.1 := List.mem_filter.2 ⟨he.1, by simp⟩
      have hw : ∃ rest, s.at_ e.1 = .writing rest := by
        by_contra hw
        push Not at hw
        rw [h4 e.1 hw] at hmem
        cases hmem
      obtain ⟨rest, hr⟩ := hw
      obtain ⟨pre, hpre⟩ := h3 _ _ hr
      obtain rfl := hout _ _ hr
      have hown : Spec.lastWritten ((log.filter fun e' => e'.1 = e.1).map Prod.snd) p = some e.2.2 := by
        have h5 : ((log.filter fun e' => e'.1 = e.1).map Prod.snd).filter (fun b => b.1 = p)
            = ((log.filter fun e => e.2.1 = p).filter fun e' => e'.1 = e.1).map Prod.snd := by
          rw [List.filter_map, List.filter_filter, List.filter_filter]
          congr 1
          apply List.filter_congr
          intro a _
          simp [Bool.and_comm]
        simp only [Spec.lastWritten, h5, hm, List.filter_append]
        simp
      rw [hlog, hpre, List.append_nil, lastWritten_suffix, hown]
      exact ⟨e.2, List.mem_map.2 ⟨e, hmem, rfl⟩, he.2⟩
    · have hz : ∀ v : List (ℕ × UInt8), (∀ b ∈ v, b.1 ≠ p) → Spec.lastWritten v p = none := by
        intro v hv
        simp only [Spec.lastWritten, Option.map_eq_none_iff, List.getLast?_eq_none_iff, List.filter_eq_nil_iff]
        intro b hb
        simpa using hv b hb
      push Not at hp
      rw [hz, hz]
      · intro b hb
        obtain ⟨e, he, rfl⟩ := List.mem_map.1 (hsup b hb)
        exact hp e he
      · intro b hb
        obtain ⟨e, he, rfl⟩ := List.mem_map.1 hb
        exact hp e he
  intro p
  have := content_image (log.map Prod.snd) p
  rw [hlast, ← hiff] at this
  exact this

private theorem at_mono {n : ℕ} (w : Fin n → List (ℕ × UInt8)) (s : CacheSystem n) (i j : Fin n) (e : PyErr)
    (h : s.at_ j = .raised e) : (s.step w i).at_ j = .raised e := by
  by_cases hj : j = i
  · subst hj; rw [step_at_self, h]; rfl
  · rw [step_at_ne w s hj, h]

private theorem raised_run {n : ℕ} (w : Fin n → List (ℕ × UInt8)) (s : CacheSystem n) (sched : List (Fin n)) (j : Fin n)
    (e : PyErr) (h : s.at_ j = .raised e) : (s.run w sched).at_ j = .raised e := by
  induction sched using List.reverseRecOn with
  | nil => exact h
  | append_singleton sched i ih => rw [run_snoc]; exact at_mono w _ i j e ih

/-- When the cache directory exists, no call of `save_beta_sbt` raises, whatever the others do. -/
theorem saves_succeed {n : ℕ} (d : CacheDisk) (hd : d.dir = true) (w : Fin n → List (ℕ × UInt8)) (sched : List (Fin n))
    (i : Fin n) (e : PyErr) : ((CacheSystem.start n d).run w sched).at_ i ≠ .raised e := by
  suffices h : ((CacheSystem.start n d).run w sched).disk.dir = true ∧
      ∀ i, ((CacheSystem.start n d).run w sched).at_ i ≠ .mkdir ∧
        ∀ e, ((CacheSystem.start n d).run w sched).at_ i ≠ .raised e from (h.2 i).2 e
  induction sched using List.reverseRecOn with
  | nil => exact ⟨hd, fun i => by simp [CacheSystem.run, CacheSystem.start]⟩
  | append_singleton sched j ih =>
    rw [run_snoc]
    set s := (CacheSystem.start n d).run w sched
    obtain ⟨h1, h2⟩ := ih
    refine ⟨?_, fun i => ?_⟩
    · rw [step_disk]
      cases hs : s.at_ j with
      | writing rest => cases rest <;> simp [saveAction, h1]
      | _ => simp [saveAction, h1]
    · by_cases hij : i = j
      · subst hij
        rw [step_at_self]
        cases hs : s.at_ i with
        | writing rest => cases rest <;> simp [saveAction]
        | mkdir => exact absurd hs (h2 i).1
        | raised e => exact absurd hs ((h2 i).2 e)
        | check => simp [saveAction, h1]
        | opening => simp [saveAction, h1]
      · rw [step_at_ne w s hij]; exact h2 i

/-- Whether the directory exists or not: a call that raises does so because another one, which does not raise, has
made the directory in between. -/
theorem saves_one_survives {n : ℕ} (d : CacheDisk) (w : Fin n → List (ℕ × UInt8)) (sched : List (Fin n))
    (i : Fin n) (e : PyErr) (h : ((CacheSystem.start n d).run w sched).at_ i = .raised e) :
    e = .osError ∧ d.dir = false ∧ ∃ j, ∀ more e', ((CacheSystem.start n d).run w (sched ++ more)).at_ j ≠ .raised e' := by
  have hdir : d.dir = false := by
    cases hd : d.dir with
    | false => rfl
    | true => exact absurd h (saves_succeed d hd w sched i e)
  suffices hinv : ∀ sched : List (Fin n),
      (((CacheSystem.start n d).run w sched).disk.dir = false ∧
        ∀ i, ((CacheSystem.start n d).run w sched).at_ i = .check ∨ ((CacheSystem.start n d).run w sched).at_ i = .mkdir) ∨
      (((CacheSystem.start n d).run w sched).disk.dir = true ∧
        (∀ i e, ((CacheSystem.start n d).run w sched).at_ i = .raised e → e = .osError) ∧
        ∃ j, ((CacheSystem.start n d).run w sched).at_ j = .opening ∨
          ∃ rest, ((CacheSystem.start n d).run w sched).at_ j = .writing rest) by
    rcases hinv sched with ⟨-, h2⟩ | ⟨hd, h2, j, hj⟩
    · rcases h2 i with h2 | h2 <;> rw [h] at h2 <;> cases h2
    · refine ⟨h2 i e h, hdir, j, ?_⟩
      suffices hk : ∀ more, ((CacheSystem.start n d).run w (sched ++ more)).disk.dir = true ∧
          (((CacheSystem.start n d).run w (sched ++ more)).at_ j = .opening ∨
            ∃ rest, ((CacheSystem.start n d).run w (sched ++ more)).at_ j = .writing rest) by
        intro more e' he
        rcases (hk more).2 with hk | ⟨rest, hk⟩ <;> rw [he] at hk <;> cases hk
      intro more
      induction more using List.reverseRecOn with
      | nil => rw [List.append_nil]; exact ⟨hd, hj⟩
      | append_singleton more k ih =>
        rw [← List.append_assoc, run_snoc]
        set s := (CacheSystem.start n d).run w (sched ++ more)
        obtain ⟨k1, k2⟩ := ih
        refine ⟨?_, ?_⟩
        · rw [step_disk]
          cases hs : s.at_ k with
          | writing rest => cases rest <;> simp [saveAction, k1]
          | _ => simp [saveAction, k1]
        · by_cases hjk : j = k
          · subst hjk
            rw [step_at_self]
            rcases k2 with k2 | ⟨rest, k2⟩
            · rw [k2]; simp [saveAction, k1]
            · rw [k2]; cases rest <;> simp [saveAction]
          · rw [step_at_ne w s hjk]; exact k2
  intro sched
  induction sched using List.reverseRecOn with
  | nil => exact Or.inl ⟨hdir, fun i => Or.inl rfl⟩
  | append_singleton sched k ih =>
    rw [run_snoc]
    set s := (CacheSystem.start n d).run w sched
    rcases ih with ⟨k1, k2⟩ | ⟨k1, k2, j, k3⟩
    · rcases k2 k with hk | hk
      · refine Or.inl ⟨by rw [step_disk, hk]; exact k1, fun i => ?_⟩
        by_cases hik : i = k
        · subst hik; rw [step_at_self, hk]; simp [saveAction, k1]
        · rw [step_at_ne w s hik]; exact k2 i
      · refine Or.inr ⟨by rw [step_disk, hk]; simp [saveAction, k1], fun i e hi => ?_, k, Or.inl ?_⟩
        · by_cases hik : i = k
          · subst hik; rw [step_at_self, hk] at hi; simp [saveAction, k1] at hi
          · rw [step_at_ne w s hik] at hi
            rcases k2 i with h3 | h3 <;> rw [hi] at h3 <;> cases h3
        · rw [step_at_self, hk]; simp [saveAction, k1]
    · refine Or.inr ⟨?_, fun i e hi => ?_, j, ?_⟩
      · rw [step_disk]
        cases hs : s.at_ k with
        | writing rest => cases rest <;> simp [saveAction, k1]
        | _ => simp [saveAction, k1]
      · by_cases hik : i = k
        · subst hik
          rw [step_at_self] at hi
          cases hs : s.at_ i with
          | writing rest => rw [hs] at hi; cases rest <;> simp [saveAction] at hi
          | check => rw [hs] at hi; simp [saveAction, k1] at hi
          | mkdir => rw [hs] at hi; simp [saveAction, k1] at hi; exact hi.symm
          | opening => rw [hs] at hi; simp [saveAction, k1] at hi
          | raised e' => rw [hs] at hi; simp [saveAction] at hi; exact k2 i e (by rw [hs, hi])
        · rw [step_at_ne w s hik] at hi; exact k2 i e hi
      · by_cases hjk : j = k
        · subst hjk
          rw [step_at_self]
          rcases k3 with k3 | ⟨rest, k3⟩
          · rw [k3]; simp [saveAction, k1]
          · rw [k3]; cases rest <;> simp [saveAction]
        · rw [step_at_ne w s hjk]; exact k3

/-- The property for equal lists in full: when all calls have ended, the list can be loaded. -/
theorem saves_agree_ended_partial {A : Type*} (F : NpzFormat A) (hF : Spec.NpzReads F) {n : ℕ} (hn : 0 < n) (d : CacheDisk)
    (x : List A) (sched : List (Fin n))
    (hend : ∀ i, (((CacheSystem.start n d).run (fun _ => F.writes x) sched).at_ i).Ended) :
    (loadCache F ((CacheSystem.start n d).run (fun _ => F.writes x) sched).disk).2 = .ok x ∧
    (d.dir = true → ∀ i, (((CacheSystem.start n d).run (fun _ => F.writes x) sched).at_ i).Returned) ∧
    ∃ i, (((CacheSystem.start n d).run (fun _ => F.writes x) sched).at_ i).Returned := by
  have hret : ∃ i, (((CacheSystem.start n d).run (fun _ => F.writes x) sched).at_ i).Returned := by
    rcases hend ⟨0, hn⟩ with h | ⟨e, h⟩
    · exact ⟨_, h⟩
    · obtain ⟨-, -, j, hj⟩ := saves_one_survives d _ sched _ e h
      rcases hend j with h' | ⟨e', h'⟩
      · exact ⟨j, h'⟩
      · exact absurd h' (by simpa using hj [] e')
  refine ⟨saves_agree F hF d x sched (fun i rest hr => ?_) hret, fun hd i => ?_, hret⟩
  · rcases hend i with h | ⟨e, h⟩
    · rw [h] at hr; exact (SavePoint.writing.inj hr).symm
    · rw [h] at hr; cases hr
  · rcases hend i with h | ⟨e, h⟩
    · exact h
    · exact absurd h (saves_succeed d hd _ sched i e)

/-- The race of two processes when the directory does not exist: both see that it is missing, one makes it, the other
one raises, and nothing that happens later changes this. -/
theorem saves_race {n : ℕ} (d : CacheDisk) (hd : d.dir = false) (w : Fin n → List (ℕ × UInt8)) (i j : Fin n) (hij : i ≠ j)
    (more : List (Fin n)) : ((CacheSystem.start n d).run w ([i, j, i, j] ++ more)).at_ j = .raised .osError := by
  rw [run_append]
  apply raised_run
  simp [CacheSystem.run, CacheSystem.step, CacheSystem.start, saveAction, hd, hij, hij.symm]

private theorem writes_alone {n : ℕ} (w : Fin n → List (ℕ × UInt8)) (i : Fin n) :
    ∀ (a rest : List (ℕ × UInt8)) (s : CacheSystem n) (f : List UInt8), s.at_ i = .writing (a ++ rest) →
      s.disk.file = some f →
      s.run w (List.replicate a.length i) =
        ⟨{ s.disk with file := some (a.foldl writeByte f) }, Function.update s.at_ i (.writing rest)⟩ := by
  intro a
  induction a with
  | nil =>
    intro rest s f h hf
    have h1 : Function.update s.at_ i (.writing rest) = s.at_ := by
      rw [← List.nil_append rest, ← h]; exact Function.update_eq_self i s.at_
    have h2 : ({ s.disk with file := some ([].foldl writeByte f) } : CacheDisk) = s.disk := by
      rw [List.foldl_nil, ← hf]
    rw [h1, h2]; rfl
  | cons b a ih =>
    intro rest s f h hf
    have h1 : s.run w (List.replicate (b :: a).length i) = (s.step w i).run w (List.replicate a.length i) := by
      simp [CacheSystem.run, List.replicate_succ]
    have h2 : s.step w i = ⟨{ s.disk with file := some (writeByte f b) }, Function.update s.at_ i (.writing (a ++ rest))⟩ := by
      unfold CacheSystem.step
      rw [h]
      simp [saveAction, hf]
    rw [h1, h2, ih rest _ (writeByte f b) (by simp) rfl]
    simp

private theorem open_alone {n : ℕ} (w : Fin n → List (ℕ × UInt8)) (i : Fin n) (s : CacheSystem n) (h : s.at_ i = .check) :
    ∃ k, s.run w (List.replicate k i) = ⟨⟨true, some []⟩, Function.update s.at_ i (.writing (w i))⟩ := by
  cases hd : s.disk.dir with
  | true => exact ⟨2, by simp [CacheSystem.run, List.replicate_succ, CacheSystem.step, saveAction, h, hd]⟩
  | false => exact ⟨3, by simp [CacheSystem.run, List.replicate_succ, CacheSystem.step, saveAction, h, hd]⟩

/-- One after the other: a call that starts when no other call goes on, whatever the disk looks like, ends, and then its
list is loaded; the lists saved before are gone. -/
theorem saves_in_turn {A : Type*} (F : NpzFormat A) (hF : Spec.NpzReads F) {n : ℕ} (w : Fin n → List (ℕ × UInt8))
    (s : CacheSystem n) (i : Fin n) (x : List A) (hw : w i = F.writes x) (hs : s.at_ i = .check) :
    ∃ k, ((s.run w (List.replicate k i)).at_ i).Returned ∧
      (loadCache F (s.run w (List.replicate k i)).disk).2 = .ok x ∧
      ∀ j, j ≠ i → (s.run w (List.replicate k i)).at_ j = s.at_ j := by
  obtain ⟨k, hk⟩ := open_alone w i s hs
  refine ⟨k + (w i).length, ?_⟩
  rw [List.replicate_add, run_append, hk, writes_alone w i (w i) [] _ [] (by simp) rfl]
  refine ⟨by simp [SavePoint.Returned], ?_, fun j hj => by simp [hj]⟩
  simp only [loadCache]
  apply hF
  rw [hw]
  exact content_image _

/-- Several processes with different lists: for every cut of the writes of `j` in two parts there is a schedule after
which both calls have returned and the file is what the first part, all writes of `i` and the second part leave. -/
theorem saves_interleave {n : ℕ} (d : CacheDisk) (w : Fin n → List (ℕ × UInt8)) (i j : Fin n)
    (hij : i ≠ j) (a b : List (ℕ × UInt8)) (hw : w j = a ++ b) :
    ∃ sched f, (((CacheSystem.start n d).run w sched).at_ i).Returned ∧
      (((CacheSystem.start n d).run w sched).at_ j).Returned ∧
      ((CacheSystem.start n d).run w sched).disk.file = some f ∧ Spec.Image (a ++ w i ++ b) f := by
  obtain ⟨k1, h1⟩ := open_alone w i (CacheSystem.start n d) rfl
  obtain ⟨k2, h2⟩ := open_alone w j ((CacheSystem.start n d).run w (List.replicate k1 i)) (by
    rw [h1]; simp [CacheSystem.start, hij.symm])
  refine ⟨List.replicate k1 i ++ (List.replicate k2 j ++ (List.replicate a.length j ++
    (List.replicate (w i).length i ++ List.replicate b.length j))), content (a ++ w i ++ b), ?_⟩
  rw [run_append, run_append, run_append, run_append, h2, h1,
    writes_alone w j a b _ [] (by simp [hw]) rfl, writes_alone w i (w i) [] _ _ (by simp [hij]) rfl,
    writes_alone w j b [] _ _ (by simp [hij.symm]) rfl]
  refine ⟨by simp [SavePoint.Returned, hij], by simp [SavePoint.Returned], ?_, content_image _⟩
  simp [content]

/-- The property fails for different lists: when two files differ at a byte that `j` writes in the second part of its
writes and at a byte that it does not write there, there is a schedule after which both calls have returned and neither
list can be loaded. -/
theorem saves_mixed {A : Type*} (F : NpzFormat A) (hF : Spec.NpzChecks F) {n : ℕ} (d : CacheDisk) (x : Fin n → List A)
    (i j : Fin n) (hij : i ≠ j) (a b : List (ℕ × UInt8)) (hw : F.writes (x j) = a ++ b) (p q : ℕ) (u v u' v' : UInt8)
    (hp : Spec.lastWritten (F.writes (x i)) p = some u) (hp' : Spec.lastWritten (F.writes (x j)) p = some v) (huv : u ≠ v)
    (hpb : ∀ e ∈ b, e.1 ≠ p) (hq : Spec.lastWritten (F.writes (x i)) q = some u') (hq' : Spec.lastWritten b q = some v')
    (huv' : u' ≠ v') :
    ∃ sched, (((CacheSystem.start n d).run (fun i => F.writes (x i)) sched).at_ i).Returned ∧
      (((CacheSystem.start n d).run (fun i => F.writes (x i)) sched).at_ j).Returned ∧
      (loadCache F ((CacheSystem.start n d).run (fun i => F.writes (x i)) sched).disk).2 ≠ .ok (x i) ∧
      (loadCache F ((CacheSystem.start n d).run (fun i => F.writes (x i)) sched).disk).2 ≠ .ok (x j) := by
  obtain ⟨sched, f, h1, h2, h3, h4⟩ := saves_interleave d (fun i => F.writes (x i)) i j hij a b hw
  have mem_of : ∀ {w : List (ℕ × UInt8)} {p : ℕ} {u : UInt8}, Spec.lastWritten w p = some u → ∃ e ∈ w, e.1 = p := by
    intro w p u h
    by_contra hne
    push Not at hne
    have : Spec.lastWritten w p = none := by
      simp only [Spec.lastWritten, Option.map_eq_none_iff, List.getLast?_eq_none_iff, List.filter_eq_nil_iff]
      intro e he
      simpa using hne e he
    rw [h] at this; cases this
  have le_of : ∀ {w : List (ℕ × UInt8)} {p : ℕ} {u : UInt8}, Spec.lastWritten w p = some u → ∃ e ∈ w, p ≤ e.1 := by
    intro w p u h
    obtain ⟨e, he, hp⟩ := mem_of h
    exact ⟨e, he, hp.ge⟩
  have hfp : f[p]? = some u := by
    have hl : Spec.lastWritten (a ++ F.writes (x i) ++ b) p = some u := by
      have h5 : Spec.lastWritten (a ++ F.writes (x i) ++ b) p = Spec.lastWritten (a ++ F.writes (x i)) p := by
        have h6 : b.filter (fun e => e.1 = p) = [] :=
          List.filter_eq_nil_iff.2 fun e he => by simpa using hpb e he
        unfold Spec.lastWritten
        rw [List.filter_append, h6, List.append_nil]
      rw [h5, lastWritten_suffix (mem_of hp), hp]
    have := (h4 p).1 (le_of hl)
    rw [hl] at this; exact this
  have hfq : f[q]? = some v' := by
    have hl : Spec.lastWritten (a ++ F.writes (x i) ++ b) q = some v' := by
      rw [lastWritten_suffix (mem_of hq'), hq']
    have := (h4 q).1 (le_of hl)
    rw [hl] at this; exact this
  refine ⟨sched, h1, h2, ?_, ?_⟩
  · simp only [loadCache, h3]
    intro h
    have := (hF _ _ h q).1 (le_of hq)
    rw [hfq, hq] at this
    exact huv' (Option.some.inj this).symm
  · simp only [loadCache, h3]
    intro h
    have := (hF _ _ h p).1 (le_of hp')
    rw [hfp, hp'] at this
    exact huv (Option.some.inj this)

/-- A kill: before the file is opened the disk holds what it held, afterwards the writes that were made and nothing of
the earlier file. -/
theorem save_killed {d : CacheDisk} (w : Fin 1 → List (ℕ × UInt8)) (k : ℕ) :
    ((CacheSystem.start 1 d).run w (List.replicate k 0)).disk.file = d.file ∨
      ∃ j f, ((CacheSystem.start 1 d).run w (List.replicate k 0)).disk.file = some f ∧ Spec.Image ((w 0).take j) f := by
  suffices h : ((∀ rest, ((CacheSystem.start 1 d).run w (List.replicate k 0)).at_ 0 ≠ .writing rest) ∧
      ((CacheSystem.start 1 d).run w (List.replicate k 0)).disk.file = d.file) ∨
      ∃ j, ((CacheSystem.start 1 d).run w (List.replicate k 0)).at_ 0 = .writing ((w 0).drop j) ∧
        ((CacheSystem.start 1 d).run w (List.replicate k 0)).disk.file = some (content ((w 0).take j)) by
    rcases h with h | ⟨j, -, h⟩
    · exact Or.inl h.2
    · exact Or.inr ⟨j, _, h, content_image _⟩
  induction k with
  | zero => exact Or.inl ⟨by simp [CacheSystem.run, CacheSystem.start], rfl⟩
  | succ k ih =>
    rw [List.replicate_succ', run_snoc]
    set s := (CacheSystem.start 1 d).run w (List.replicate k 0)
    rw [step_disk, step_at_self]
    rcases ih with ⟨h1, h2⟩ | ⟨j, h1, h2⟩
    · cases hs : s.at_ 0 with
      | writing rest => exact absurd hs (h1 rest)
      | check => left; refine ⟨?_, by simp [saveAction, h2]⟩; intro rest; simp only [saveAction]; split_ifs <;> simp
      | mkdir => left; simp only [saveAction]; split_ifs <;> simp [h2]
      | raised e => left; simp [saveAction, h2]
      | opening =>
        simp only [saveAction]
        split_ifs
        · right; exact ⟨0, by simp, by simp [content]⟩
        · left; simp [h2]
    · right
      rw [h1]
      cases hr : (w 0).drop j with
      | nil => exact ⟨j, by simp [saveAction, hr], by simp [saveAction, h2]⟩
      | cons b rest =>
        have hj : j < (w 0).length := by
          by_contra hge
          rw [List.drop_eq_nil_of_le (by omega)] at hr; cases hr
        rw [List.drop_eq_getElem_cons hj] at hr
        obtain ⟨rfl, rfl⟩ := List.cons.inj hr
        refine ⟨j + 1, by simp [saveAction], ?_⟩
        simp only [saveAction, h2, Option.getD_some]
        rw [List.take_add_one, List.getElem?_eq_getElem hj, Option.toList_some, content_snoc]

/-- A save that is killed right after the opening of the file destroys the list that was there. -/
theorem save_killed_loses {A : Type*} (F : NpzFormat A) (hF : Spec.NpzChecks F) (hne : ∀ y, F.writes y ≠ [])
    (d : CacheDisk) (x : List A) :
    ∃ k, ∀ y, (loadCache F ((CacheSystem.start 1 d).run (fun _ => F.writes x) (List.replicate k 0)).disk).2 ≠ .ok y := by
  obtain ⟨k, hk⟩ := open_alone (fun _ => F.writes x) 0 (CacheSystem.start 1 d) rfl
  refine ⟨k, fun y h => ?_⟩
  rw [hk] at h
  obtain ⟨e, he⟩ := List.exists_mem_of_ne_nil _ (hne y)
  have := (hF y [] h 0).1 ⟨e, he, Nat.zero_le _⟩
  simp at this

/-! ### Concrete cases -/

/-- A small format: the bytes of the list and a final zero. -/
def tinyFormat : NpzFormat UInt8 where
  writes x := (x ++ [0]).zipIdx.map Prod.swap
  decode f := if f.getLast? = some 0 then .ok f.dropLast else .error .valueError

private theorem content_zipIdx (l : List UInt8) : content (l.zipIdx.map Prod.swap) = l := by
  induction l using List.reverseRecOn with
  | nil => rfl
  | append_singleton l b ih =>
    rw [List.zipIdx_append, List.map_append]
    simp only [List.zipIdx_singleton, List.map_cons, List.map_nil, Prod.swap]
    rw [content_snoc, ih]
    simp [writeByte]

theorem tinyFormat_reads : Spec.NpzReads tinyFormat := by
  intro x f h
  have hf : f = x ++ [0] := by
    rw [image_unique h (content_image _)]; exact content_zipIdx _
  subst hf
  simp [tinyFormat]

theorem tinyFormat_checks : Spec.NpzChecks tinyFormat := by
  intro x f h
  simp only [tinyFormat] at h ⊢
  split_ifs at h with hl
  have hf : f = x ++ [0] := by
    obtain rfl := Except.ok.inj h
    obtain ⟨m, rfl⟩ := List.getLast?_eq_some_iff.1 hl
    simp
  have hi := content_image ((x ++ [0]).zipIdx.map Prod.swap)
  rw [content_zipIdx] at hi
  rw [hf]
  exact hi

/-- Two processes save the same list; the second one opens the file while the first one is at its second byte. -/
example : (loadCache tinyFormat ((CacheSystem.start 2 ⟨true, some [9, 9, 9]⟩).run (fun _ => tinyFormat.writes [7])
    [0, 0, 0, 1, 1, 0, 1, 1]).disk).2 = .ok [7] := by
  refine (saves_agree_ended_partial tinyFormat tinyFormat_reads (by norm_num) ⟨true, some [9, 9, 9]⟩ [7]
    [0, 0, 0, 1, 1, 0, 1, 1] fun i => Or.inl ?_).1
  fin_cases i <;> rfl

/-- One of two processes raises, the list of the other one is there. -/
example : ((CacheSystem.start 2 ⟨false, none⟩).run (fun _ => tinyFormat.writes [7]) [0, 1, 0, 1, 0, 0, 0]).at_ 1
      = .raised .osError ∧
    (loadCache tinyFormat ((CacheSystem.start 2 ⟨false, none⟩).run (fun _ => tinyFormat.writes [7])
      [0, 1, 0, 1, 0, 0, 0]).disk).2 = .ok [7] := by
  have h := saves_race ⟨false, none⟩ rfl (fun _ : Fin 2 => tinyFormat.writes [7]) 0 1 (by decide) [0, 0, 0]
  refine ⟨h, (saves_agree_ended_partial tinyFormat tinyFormat_reads (by norm_num) ⟨false, none⟩ [7]
    [0, 1, 0, 1, 0, 0, 0] fun i => ?_).1⟩
  fin_cases i
  · exact Or.inl rfl
  · exact Or.inr ⟨_, h⟩

/-- Two processes save different lists, both calls return, and neither list is in the cache. -/
example : ∃ sched : List (Fin 2),
    (loadCache tinyFormat ((CacheSystem.start 2 ⟨true, none⟩).run
      (fun i => tinyFormat.writes ((![[1, 2], [3, 4]] : Fin 2 → List UInt8) i)) sched).disk).2 ≠ .ok [1, 2] ∧
    (loadCache tinyFormat ((CacheSystem.start 2 ⟨true, none⟩).run
      (fun i => tinyFormat.writes ((![[1, 2], [3, 4]] : Fin 2 → List UInt8) i)) sched).disk).2 ≠ .ok [3, 4] := by
  obtain ⟨sched, -, -, h1, h2⟩ := saves_mixed tinyFormat tinyFormat_checks ⟨true, none⟩
    (![[1, 2], [3, 4]] : Fin 2 → List UInt8) 0 1 (by decide) [(0, 3)] [(1, 4), (2, 0)] rfl 0 1 1 3 2 4 rfl rfl (by decide)
    (by decide) rfl rfl (by decide)
  exact ⟨sched, h1, h2⟩

/-- A killed save leaves a cache that cannot be read. -/
example : ∃ k, ∀ y, (loadCache tinyFormat ((CacheSystem.start 1 ⟨true, some [5, 0]⟩).run (fun _ => tinyFormat.writes [6])
    (List.replicate k 0)).disk).2 ≠ .ok y :=
  save_killed_loses tinyFormat tinyFormat_checks (by intro y; simp [tinyFormat]) ⟨true, some [5, 0]⟩ [6]

end Jrystal
