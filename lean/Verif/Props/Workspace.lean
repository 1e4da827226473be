import Verif.Model.Workspace
import Verif.Model.Const
import Verif.Props.BandRun
import Verif.Props.BandRunNC
import Verif.Props.Const

/-
C115: what remains of the results of several band-structure calculations in one directory.
-/
namespace Jrystal

/-- The atomic numbers of the crystal that a call reads. -/
def Spec.Elements (zs : List ℤ) : BandCall → Prop
  | .allElectron L _ cfg _ => ∃ m a, L.read (crystalPath L.pkgPath cfg) = .ok ⟨m, a⟩ ∧ zs = List.ofFn a.numbers
  | .normConserving L _ cfg _ _ =>
    ∃ m a, L.read (crystalPath L.pkgPath cfg.toRunConfig) = .ok ⟨m, a⟩ ∧ zs = List.ofFn a.numbers

/-- The chemical symbols that a call uses are those of `symbol`. -/
def Spec.UsesSymbols (symbol : ℤ → String) : BandCall → Prop
  | .allElectron _ T _ _ => T.symbol = symbol
  | .normConserving L _ _ _ _ => ∀ z, String.ofList (L.symbol z) = symbol z

/-- Chemical symbols of some elements: an upper-case letter and lower-case letters, different for different
elements. -/
def Spec.ChemicalSymbols (symbol : ℤ → String) (elements : Set ℤ) : Prop :=
  (∀ z ∈ elements, ∃ c t, (symbol z).toList = c :: t ∧ c.isUpper = true ∧ ∀ x ∈ t, x.isUpper = false) ∧
    ∀ z ∈ elements, ∀ z' ∈ elements, symbol z = symbol z' → z = z'

/-- A schedule of several attempts that run at the same time: each attempt makes its own operations in its own order,
and nothing else is done. -/
def Spec.Schedule {n : ℕ} (a : Fin n → Attempt) (s : List (Fin n × DirStep)) : Prop :=
  ∀ i, (s.filter fun p => p.1 = i).map Prod.snd = (a i).steps

private theorem after_other (d : WorkDir) (s : List DirStep) (f : String) (h : ∀ x ∈ s, x.name ≠ f) :
    d.after s f = d f := by
  induction s generalizing d with
  | nil => rfl
  | cons x s ih =>
    refine (ih (DirStep.apply d x) fun y hy => h y (List.mem_cons_of_mem _ hy)).trans ?_
    exact if_neg fun e => h x List.mem_cons_self e.symm

private theorem after_append (d : WorkDir) (s t : List DirStep) : d.after (s ++ t) = (d.after s).after t :=
  List.foldl_append

private theorem after_filter (d : WorkDir) (s : List DirStep) (f : String) :
    d.after s f = d.after (s.filter fun x => x.name = f) f := by
  induction s using List.reverseRecOn with
  | nil => rfl
  | append_singleton s x ih =>
    rw [List.filter_append, after_append, after_append]
    by_cases hx : x.name = f
    · rw [List.filter_cons_of_pos (by simpa using hx)]
      show DirStep.apply _ x f = DirStep.apply _ x f
      unfold DirStep.apply
      rw [if_pos hx.symm, if_pos hx.symm]
    · rw [List.filter_cons_of_neg (by simpa using hx)]
      show DirStep.apply _ x f = _
      unfold DirStep.apply
      rw [if_neg fun e => hx e.symm]
      exact ih

private theorem steps_ok {c : BandCall} {name : String} {x : SavedArray} (h : c.outcome = .ok (name, x)) :
    c.steps = [.create name, .fill name x] := by
  unfold BandCall.steps
  rw [h]

private theorem steps_touch {a : Attempt} {s : DirStep} (h : s ∈ a.steps) :
    ∃ x, a.call.outcome = .ok (s.name, x) ∧ a.killed ≠ some 0 := by
  have h1 : s ∈ a.call.steps := by
    unfold Attempt.steps at h
    split at h
    · exact h
    · exact List.mem_of_mem_take h
  unfold BandCall.steps at h1
  split at h1
  · cases h1
  · rename_i name x e
    refine ⟨x, ?_, fun hk => ?_⟩
    · rw [e]
      rcases List.mem_cons.1 h1 with rfl | h1
      · rfl
      · rw [List.mem_singleton.1 h1]; rfl
    · unfold Attempt.steps at h
      rw [hk] at h
      simp at h

/-- C115: a file changes only when a calculation saves under its name.  Calculations that raise, that save another file
or that are killed before they save leave it as it is. -/
theorem history_other_files (d : WorkDir) (h : List Attempt) (f : String)
    (hf : ∀ a ∈ h, ∀ x, a.call.outcome = .ok (f, x) → a.killed = some 0) : d.history h f = d f := by
  refine after_other d _ f fun s hs e => ?_
  obtain ⟨a, ha, hsa⟩ := List.mem_flatMap.1 hs
  obtain ⟨x, h1, h2⟩ := steps_touch hsa
  exact h2 (hf a ha x (e ▸ h1))

/-- C115: after any history a file holds the array of the last calculation that saved under its name, if that one was not
interrupted. -/
theorem history_last_saved (d : WorkDir) (before after : List Attempt) (c : BandCall) (f : String) (x : SavedArray)
    (hc : c.outcome = .ok (f, x))
    (hafter : ∀ a ∈ after, ∀ y, a.call.outcome = .ok (f, y) → a.killed = some 0) :
    d.history (before ++ ⟨c, none⟩ :: after) f = some (.array x) := by
  have h1 : d.history (before ++ ⟨c, none⟩ :: after) = ((d.history before).history [⟨c, none⟩]).history after := by
    unfold WorkDir.history
    rw [← after_append, ← after_append, ← List.flatMap_append, ← List.flatMap_append]
    simp
  rw [h1, history_other_files _ after f hafter]
  show (d.history before).after (BandCall.steps c ++ []) f = _
  rw [List.append_nil, steps_ok hc]
  show DirStep.apply (DirStep.apply (d.history before) (.create f)) (.fill f x) f = _
  exact if_pos rfl

/-- C115 is false when a calculation is killed while it saves: the file has been emptied, and what an earlier calculation
had saved under this name is lost. -/
theorem history_interrupted_write (d : WorkDir) (before : List Attempt) (c : BandCall) (f : String) (x : SavedArray)
    (hc : c.outcome = .ok (f, x)) : d.history (before ++ [⟨c, some 1⟩]) f = some .torn := by
  unfold WorkDir.history
  rw [List.flatMap_append, after_append]
  show (d.after (before.flatMap Attempt.steps)).after ((BandCall.steps c).take 1 ++ []) f = _
  rw [List.append_nil, steps_ok hc]
  exact if_pos rfl

/-- C115: calculations at the same time.  Under every schedule, a calculation that is not killed and whose file no other
one writes finds its array in its file at the end. -/
theorem schedule_saved {n : ℕ} (d : WorkDir) (a : Fin n → Attempt) (s : List (Fin n × DirStep))
    (hs : Spec.Schedule a s) (i : Fin n) (f : String) (x : SavedArray) (hc : (a i).call.outcome = .ok (f, x))
    (hk : (a i).killed = none)
    (hother : ∀ j, j ≠ i → ∀ y, (a j).call.outcome = .ok (f, y) → (a j).killed = some 0) :
    d.after (s.map Prod.snd) f = some (.array x) := by
  have hmem : ∀ p ∈ s, p.2 ∈ (a p.1).steps := fun p hp => by
    rw [← hs p.1]
    exact List.mem_map.2 ⟨p, List.mem_filter.2 ⟨hp, by simp⟩, rfl⟩
  have hstep : (a i).steps = [.create f, .fill f x] := by
    unfold Attempt.steps
    rw [hk]
    exact steps_ok hc
  have hfilter : (s.map Prod.snd).filter (fun t => t.name = f) = (a i).steps := by
    rw [← hs i, List.filter_map]
    congr 1
    refine List.filter_congr fun p hp => ?_
    by_cases hpi : p.1 = i
    · have := hmem p hp
      rw [hpi, hstep] at this
      simp only [Function.comp, hpi, decide_true, decide_eq_true_eq]
      rcases List.mem_cons.1 this with e | e
      · rw [e]; rfl
      · rw [List.mem_singleton.1 e]; rfl
    · simp only [Function.comp, hpi, decide_false, decide_eq_false_iff_not]
      intro e
      obtain ⟨y, h1, h2⟩ := steps_touch (hmem p hp)
      exact h2 (hother _ hpi y (e ▸ h1))
  rw [after_filter, hfilter, hstep]
  exact if_pos rfl

/-- C115: under every schedule, a file that no calculation saves stays as it is. -/
theorem schedule_other_files {n : ℕ} (d : WorkDir) (a : Fin n → Attempt) (s : List (Fin n × DirStep))
    (hs : Spec.Schedule a s) (f : String)
    (hf : ∀ i, ∀ x, (a i).call.outcome = .ok (f, x) → (a i).killed = some 0) :
    d.after (s.map Prod.snd) f = d f := by
  refine after_other d _ f fun t ht e => ?_
  obtain ⟨p, hp, rfl⟩ := List.mem_map.1 ht
  have hm : p.2 ∈ (a p.1).steps := by
    rw [← hs p.1]
    exact List.mem_map.2 ⟨p, List.mem_filter.2 ⟨hp, by simp⟩, rfl⟩
  obtain ⟨x, h1, h2⟩ := steps_touch hm
  exact h2 (hf p.1 x (e ▸ h1))

/-- Words made of symbols can be read in one way only. -/
private theorem symbols_unique (l l' : List (List Char))
    (hl : ∀ w ∈ l, ∃ c t, w = c :: t ∧ c.isUpper = true ∧ ∀ x ∈ t, x.isUpper = false)
    (hl' : ∀ w ∈ l', ∃ c t, w = c :: t ∧ c.isUpper = true ∧ ∀ x ∈ t, x.isUpper = false)
    (h : l.flatten = l'.flatten) : l = l' := by
  induction l generalizing l' with
  | nil =>
    cases l' with
    | nil => rfl
    | cons w l' =>
      obtain ⟨c, t, rfl, -⟩ := hl' w List.mem_cons_self
      simp at h
  | cons w l ih =>
    obtain ⟨c, t, rfl, hc, ht⟩ := hl w List.mem_cons_self
    cases l' with
    | nil => simp at h
    | cons w' l' =>
      obtain ⟨c', t', rfl, hc', ht'⟩ := hl' w' List.mem_cons_self
      simp only [List.flatten_cons, List.cons_append, List.cons.injEq] at h
      obtain ⟨rfl, h⟩ := h
      have key : ∀ (t t' r r' : List Char), (∀ x ∈ t, x.isUpper = false) → (∀ x ∈ t', x.isUpper = false) →
          (∀ x y, r = x :: y → x.isUpper = true) → (∀ x y, r' = x :: y → x.isUpper = true) →
          t ++ r = t' ++ r' → t = t' ∧ r = r' := by
        intro t
        induction t with
        | nil =>
          intro t' r r' _ h2 h3 _ h5
          cases t' with
          | nil => exact ⟨rfl, h5⟩
          | cons x t' =>
            have := h3 x _ h5
            rw [h2 x List.mem_cons_self] at this
            cases this
        | cons x t iht =>
          intro t' r r' h1 h2 h3 h4 h5
          cases t' with
          | nil =>
            have := h4 x _ h5.symm
            rw [h1 x List.mem_cons_self] at this
            cases this
          | cons y t' =>
            simp only [List.cons_append, List.cons.injEq] at h5
            obtain ⟨rfl, h5⟩ := h5
            obtain ⟨rfl, e⟩ := iht t' r r' (fun z hz => h1 z (List.mem_cons_of_mem _ hz))
              (fun z hz => h2 z (List.mem_cons_of_mem _ hz)) h3 h4 h5
            exact ⟨rfl, e⟩
      have head : ∀ m : List (List Char),
          (∀ w ∈ m, ∃ c t, w = c :: t ∧ c.isUpper = true ∧ ∀ x ∈ t, x.isUpper = false) →
          ∀ x y, m.flatten = x :: y → x.isUpper = true := by
        intro m hm x y e
        cases m with
        | nil => simp at e
        | cons w m =>
          obtain ⟨c, t, rfl, h1, -⟩ := hm w List.mem_cons_self
          simp only [List.flatten_cons, List.cons_append, List.cons.injEq] at e
          rw [← e.1]
          exact h1
      obtain ⟨rfl, e⟩ := key t t' _ _ ht ht' (head l fun w hw => hl w (List.mem_cons_of_mem _ hw))
        (head l' fun w hw => hl' w (List.mem_cons_of_mem _ hw)) h
      rw [ih l' (fun w hw => hl w (List.mem_cons_of_mem _ hw)) (fun w hw => hl' w (List.mem_cons_of_mem _ hw)) e]

private theorem join_toList (l : List String) : (String.join l).toList = (l.map String.toList).flatten := by
  have key : ∀ (l : List String) (a : String),
      (l.foldl (fun r s => r ++ s) a).toList = a.toList ++ (l.map String.toList).flatten := by
    intro l
    induction l with
    | nil => intro a; simp
    | cons s l ih => intro a; rw [List.foldl_cons, ih]; simp
  have := key l ""
  simpa [String.join] using this

private theorem fromAse_numbers {m : ℕ} (a : AseAtoms m) (spin : Option ℤ) (c : Crystal m)
    (h : createCrystal a spin = .ok c) : c.charges = a.numbers := by
  unfold createCrystal at h
  simp only at h
  split at h
  · cases h
  · cases h; rfl

private theorem name_crystalNC (L : NcLib) (T : BandTools) (cfg : NcConfig) (b : BandConfig) (supplied : Bool) {m : ℕ}
    (c : Crystal m) (P : NcLists) (r : BandFileNC) (h : bandCrystalNC L T cfg b supplied c P = .ok r) :
    r.name = String.ofList (List.ofFn fun i => L.symbol (c.charges i)).flatten ++ "_band_structure.npy" := by
  unfold bandCrystalNC at h
  split at h
  · cases h
  split at h
  · cases h
  split at h
  · cases h
  unfold bandGridNC at h
  split at h
  · cases h
  split at h
  · cases h
  split at h
  · split at h
    · cases h
    · generalize (if b.parallelPath = true then L.devices else 1) = u at h
      split at h <;> cases h
  split at h
  · cases h
  unfold bandLoopNC at h
  split at h
  · cases h
  simp only at h
  generalize (if b.parallelPath = true then L.devices else 1) = u at h
  split at h
  · cases h
  split at h
  · cases h
  split at h
  · cases h
  cases h
  rfl

/-- C115: the name of the file is made of the symbols of the elements, in the order of the atoms. -/
theorem outcome_name (symbol : ℤ → String) (c : BandCall) (zs : List ℤ) (hz : Spec.Elements zs c)
    (hs : Spec.UsesSymbols symbol c) (f : String) (x : SavedArray) (h : c.outcome = .ok (f, x)) :
    f = String.join (zs.map symbol) ++ "_band_structure.npy" := by
  cases c with
  | allElectron L T cfg b =>
    obtain ⟨m, a, hr, rfl⟩ := hz
    have hs : T.symbol = symbol := hs
    subst hs
    cases hf : bandRun L T cfg b with
    | error e => simp [BandCall.outcome, hf, Except.map] at h
    | ok r =>
      have h1 : r.name = f := by
        simp only [BandCall.outcome, hf, Except.map, Except.ok.injEq, Prod.mk.injEq] at h
        exact h.1
      have h2 : bandAtoms L T cfg b a = .ok r := by
        rw [← hf]
        unfold bandRun
        rw [hr]
      obtain ⟨-, -, -, -, -, h3, -⟩ := bandRun_saved L T cfg b a r h2
      rw [← h1, h3, List.map_ofFn]
      rfl
  | normConserving L T cfg b supplied =>
    obtain ⟨m, a, hr, rfl⟩ := hz
    cases hf : bandRunNC L T cfg b supplied with
    | error e => simp [BandCall.outcome, hf, Except.map] at h
    | ok r =>
      have h1 : r.name = f := by
        simp only [BandCall.outcome, hf, Except.map, Except.ok.injEq, Prod.mk.injEq] at h
        exact h.1
      have h2 : bandAtomsNC L T cfg b supplied a = .ok r := by
        rw [← hf]
        unfold bandRunNC
        rw [hr]
      have h3 : r.name = String.ofList (List.ofFn fun i => L.symbol (a.numbers i)).flatten ++ "_band_structure.npy" := by
        unfold bandAtomsNC at h2
        split at h2
        · cases h2
        · rename_i c hc
          rw [← fromAse_numbers a _ c hc]
          split at h2
          · cases h2
          · exact name_crystalNC L T cfg b supplied c _ r h2
      rw [← h1, h3]
      congr 1
      apply String.toList_injective
      rw [join_toList, String.toList_ofList, List.map_ofFn, List.map_ofFn]
      congr 2
      funext i
      show L.symbol _ = (symbol _).toList
      rw [← hs, String.toList_ofList]

private theorem suffix_inj {a b : String} (h : a ++ "_band_structure.npy" = b ++ "_band_structure.npy") : a = b := by
  apply String.toList_injective
  have := congrArg String.toList h
  rw [String.toList_append, String.toList_append] at this
  exact List.append_cancel_right this

/-- C115: two calculations save under the same name only if their crystals have the same elements in the same order. -/
theorem outcome_name_elements (symbol : ℤ → String) (elements : Set ℤ) (hsym : Spec.ChemicalSymbols symbol elements)
    (c c' : BandCall) (zs zs' : List ℤ) (hz : Spec.Elements zs c) (hz' : Spec.Elements zs' c')
    (hs : Spec.UsesSymbols symbol c) (hs' : Spec.UsesSymbols symbol c')
    (he : ∀ z ∈ zs, z ∈ elements) (he' : ∀ z ∈ zs', z ∈ elements)
    (f : String) (x x' : SavedArray) (h : c.outcome = .ok (f, x)) (h' : c'.outcome = .ok (f, x')) : zs = zs' := by
  have e := suffix_inj ((outcome_name symbol c zs hz hs f x h).symm.trans (outcome_name symbol c' zs' hz' hs' f x' h'))
  have e1 := congrArg String.toList e
  rw [join_toList, join_toList] at e1
  have e2 := symbols_unique _ _ (fun w hw => by
    obtain ⟨s, hs, rfl⟩ := List.mem_map.1 hw
    obtain ⟨z, hz, rfl⟩ := List.mem_map.1 hs
    exact hsym.1 z (he z hz)) (fun w hw => by
    obtain ⟨s, hs, rfl⟩ := List.mem_map.1 hw
    obtain ⟨z, hz, rfl⟩ := List.mem_map.1 hs
    exact hsym.1 z (he' z hz)) e1
  rw [List.map_map, List.map_map] at e2
  clear e e1 hz hz' h h'
  induction zs generalizing zs' with
  | nil => cases zs' with
    | nil => rfl
    | cons z zs' => cases e2
  | cons z zs ih => cases zs' with
    | nil => cases e2
    | cons z' zs' =>
      rw [List.map_cons, List.map_cons, List.cons.injEq] at e2
      rw [hsym.2 z (he z List.mem_cons_self) z' (he' z' List.mem_cons_self) (String.toList_injective e2.1),
        ih zs' (fun w hw => he w (List.mem_cons_of_mem _ hw)) (fun w hw => he' w (List.mem_cons_of_mem _ hw)) e2.2]

/-- C115, the part that holds: any number of calculations at the same time, under every schedule, for crystals with
different sequences of elements.  Each one that is not killed finds its array in its file. -/
theorem schedule_elements_partial {n : ℕ} (symbol : ℤ → String) (elements : Set ℤ)
    (hsym : Spec.ChemicalSymbols symbol elements) (d : WorkDir) (a : Fin n → Attempt) (zs : Fin n → List ℤ)
    (hz : ∀ i, Spec.Elements (zs i) (a i).call) (hs : ∀ i, Spec.UsesSymbols symbol (a i).call)
    (he : ∀ i, ∀ z ∈ zs i, z ∈ elements) (hne : ∀ i j, i ≠ j → zs i ≠ zs j)
    (s : List (Fin n × DirStep)) (hsch : Spec.Schedule a s) (i : Fin n) (f : String) (x : SavedArray)
    (hc : (a i).call.outcome = .ok (f, x)) (hk : (a i).killed = none) :
    f = String.join ((zs i).map symbol) ++ "_band_structure.npy" ∧
      d.after (s.map Prod.snd) f = some (.array x) :=
  ⟨outcome_name symbol _ _ (hz i) (hs i) f x hc, schedule_saved d a s hsch i f x hc hk fun j hj y hy =>
    absurd (outcome_name_elements symbol elements hsym _ _ _ _ (hz j) (hz i) (hs j) (hs i) (he j) (he i) f y x hy hc)
      (hne j i hj)⟩

/-- C115 is false for two crystals with the same elements in the same order, for two functionals, two cutoffs, or with
and without pseudopotentials: both calculations save under the same name, and afterwards no file holds what the first one
computed. -/
theorem history_same_elements (symbol : ℤ → String) (c c' : BandCall) (zs : List ℤ) (hz : Spec.Elements zs c)
    (hz' : Spec.Elements zs c') (hs : Spec.UsesSymbols symbol c) (hs' : Spec.UsesSymbols symbol c')
    (f f' : String) (x x' : SavedArray) (h : c.outcome = .ok (f, x)) (h' : c'.outcome = .ok (f', x')) (hx : x ≠ x') :
    f' = f ∧ ∀ g, WorkDir.history (fun _ => none) [⟨c, none⟩, ⟨c', none⟩] g ≠ some (.array x) := by
  obtain rfl : f' = f :=
    (outcome_name symbol c' zs hz' hs' f' x' h').trans (outcome_name symbol c zs hz hs f x h).symm
  refine ⟨rfl, fun g hg => ?_⟩
  by_cases hgf : g = f'
  · rw [hgf] at hg
    have := history_last_saved (fun _ => none) [⟨c, none⟩] [] c' f' x' h' (by simp)
    rw [List.singleton_append, hg] at this
    cases this
    exact hx rfl
  · rw [history_other_files] at hg
    · cases hg
    · intro a ha y hy
      exfalso
      rcases List.mem_cons.1 ha with rfl | ha
      · rw [show _ = _ from h] at hy
        cases hy
        exact hgf rfl
      · rw [List.mem_singleton.1 ha] at hy
        rw [show _ = _ from h'] at hy
        cases hy
        exact hgf rfl

/-- The symbols of the elements with the numbers from 1 to 118. -/
def tableSymbol (z : ℤ) : String := (dictGet number2symbol z.toNat).getD ""

private theorem table_form : ∀ p ∈ number2symbol, ∃ c t, p.2.toList = c :: t ∧ c.isUpper = true ∧
    ∀ x ∈ t, x.isUpper = false := by
  have h : ∀ p ∈ number2symbol, (match p.2.toList with | [] => false | c :: t => c.isUpper && t.all fun x => !x.isUpper)
      = true := by decide +kernel
  intro p hp
  have := h p hp
  split at this
  · cases this
  · rename_i c t e
    rw [Bool.and_eq_true, List.all_eq_true] at this
    exact ⟨c, t, e, this.1, fun x hx => by simpa using this.2 x hx⟩

/-- The hypothesis on the symbols holds for the table of the package. -/
theorem table_chemicalSymbols : Spec.ChemicalSymbols tableSymbol {z | 1 ≤ z ∧ z ≤ 118} := by
  have hget : ∀ z : ℤ, 1 ≤ z ∧ z ≤ 118 → ∃ s, dictGet number2symbol z.toNat = some s ∧ tableSymbol z = s := by
    intro z hz
    obtain ⟨s, hs⟩ := (element_numbers z.toNat).2 (by omega)
    exact ⟨s, hs, by unfold tableSymbol; rw [hs]; rfl⟩
  refine ⟨fun z hz => ?_, fun z hz z' hz' e => ?_⟩
  · obtain ⟨s, h1, h2⟩ := hget z hz
    rw [h2]
    have hm : (z.toNat, s) ∈ number2symbol := by
      unfold dictGet at h1
      rw [Option.map_eq_some_iff] at h1
      obtain ⟨p, hp, rfl⟩ := h1
      have h3 : p.1 = z.toNat := by simpa using List.find?_some hp
      rw [← h3]
      exact List.mem_reverse.1 (List.mem_of_find?_eq_some hp)
    exact table_form _ hm
  · obtain ⟨s, h1, h2⟩ := hget z hz
    obtain ⟨s', h1', h2'⟩ := hget z' hz'
    rw [h2, h2'] at e
    subst e
    have := element_symbols_injective _ _ _ h1 h1'
    have h3 : (1 : ℤ) ≤ z := hz.1
    have h4 : (1 : ℤ) ≤ z' := hz'.1
    omega

private theorem outcome_allElectron (L : RunLib) (T : BandTools) (cfg : RunConfig) (b : BandConfig) {m : ℕ}
    (a : AseAtoms m) (hr : L.read (crystalPath L.pkgPath cfg) = .ok ⟨m, a⟩) (f : BandFile)
    (h : bandAtoms L T cfg b a = .ok f) :
    (BandCall.allElectron L T cfg b).outcome = .ok (f.name, .channels f.spins f.kpts f.bands f.values) := by
  simp only [BandCall.outcome, bandRun, hr, h, Except.map]

/-- A calculation of the bands of the atom with three or four electrons, with `e` empty bands. -/
private theorem atom_saved (e : ℕ) (he : e ≤ 2) (δ : ℝ) :
    (∃ v, (BandCall.allElectron (lithiumLib diracLib) { lithiumTools δ with symbol := tableSymbol } lithiumConfig
        { lithiumBands with emptyBands := e }).outcome = .ok ("Li_band_structure.npy", .channels 2 16 (2 + e) v)) ∧
    ∃ v, (BandCall.allElectron (berylliumLib 1) { lithiumTools δ with symbol := tableSymbol } berylliumConfig
        { lithiumBands with emptyBands := e }).outcome = .ok ("Be_band_structure.npy", .channels 1 16 (2 + e) v) := by
  have hw : ∀ n, Spec.LeastGrid (fun _ => 4) n → ∀ mask, createFreqMask lithiumConfig
      ((angstrom2bohr : ℝ) • (1 : Matrix (Fin 3) (Fin 3) ℝ)) n = .ok mask → 4 ≤ Fintype.card {k // mask k = true} := by
    intro n hn mask hm
    obtain rfl : n = fun _ => 4 := funext fun i => RunSetup.least_eq (k := 4) (hn i) RunSetup.smooth4
    have : mask = cubicMask _ := by
      unfold createFreqMask at hm
      rw [if_pos (show lithiumConfig.maskMethod = "cubic" from rfl)] at hm
      injection hm with hm
      exact hm.symm
    subst this
    decide +kernel
  have H : Spec.AdmissibleBand (lithiumLib diracLib) { lithiumTools δ with symbol := tableSymbol } lithiumConfig
      { lithiumBands with emptyBands := e } (⟨fun _ => 3, 0, 1⟩ : AseAtoms 1) (fun _ => 4) (fun _ => 2) 3 1 16 _ :=
    { lithium_admissible diracLib with
      number := rfl
      path := rfl
      points := by norm_num
      share := by show 8 ∣ 16; norm_num
      parallel := Or.inl rfl
      bandWaves := fun n hn mask hm => le_trans (show 2 + e ≤ 4 by omega) (hw n hn mask hm)
      bandOptimizer := ⟨_, rfl⟩ }
  have H0 : Spec.AdmissibleRun (berylliumLib 1) berylliumConfig (⟨fun _ => 4, 0, 1⟩ : AseAtoms 1) (fun _ => 4)
      (fun _ => 2) 4 0 :=
    { lithium_admissible diracLib with
      electrons := by simp
      unpaired := rfl
      placeable := ⟨by decide, Or.inr (Or.inl ⟨rfl, by decide, by decide⟩)⟩
      optimizer := ⟨nearOptimizer 1, rfl, nearOptimizer_keeps 1⟩ }
  have H' : Spec.AdmissibleBand (berylliumLib 1) { lithiumTools δ with symbol := tableSymbol } berylliumConfig
      { lithiumBands with emptyBands := e } (⟨fun _ => 4, 0, 1⟩ : AseAtoms 1) (fun _ => 4) (fun _ => 2) 4 0 16 _ :=
    { H0 with
      number := rfl
      path := rfl
      points := by norm_num
      share := by show 8 ∣ 16; norm_num
      parallel := Or.inl rfl
      bandWaves := fun n hn mask hm => le_trans (show 2 + e ≤ 4 by omega) (hw n hn mask hm)
      bandOptimizer := ⟨_, rfl⟩ }
  constructor
  · obtain ⟨k, hk⟩ := coordinates_exist (fromAse_det (⟨fun _ => 3, 0, 1⟩ : AseAtoms 1) none (by simp)) _
    obtain ⟨n, rep, mask, values, -, -, -, h, -⟩ := bandRun_channels _ _ _ _ _ _ _ _ _ H _ rfl _ (fun _ _ => rfl) _
      (fun _ => rfl) k hk
    exact ⟨values, (outcome_allElectron _ _ _ _ _ rfl _ h).trans (by
      simp only [List.ofFn_succ, List.ofFn_zero, String.join, List.foldl]; rfl)⟩
  · obtain ⟨k, hk⟩ := coordinates_exist (fromAse_det (⟨fun _ => 4, 0, 1⟩ : AseAtoms 1) none (by simp)) _
    obtain ⟨n, rep, mask, values, -, -, -, h, -⟩ := bandRun_channels _ _ _ _ _ _ _ _ _ H' _ rfl _ (fun _ _ => rfl) _
      (fun _ => rfl) k hk
    exact ⟨values, (outcome_allElectron _ _ _ _ _ rfl _ h).trans (by
      simp only [List.ofFn_succ, List.ofFn_zero, String.join, List.foldl]; rfl)⟩

/-- The hypotheses of `schedule_elements_partial` hold for lithium and beryllium, with a schedule in which beryllium saves
its file while that of lithium is open; both files are complete at the end. -/
example : ∃ (a : Fin 2 → Attempt) (zs : Fin 2 → List ℤ) (s : List (Fin 2 × DirStep)) (f : Fin 2 → String)
    (x : Fin 2 → SavedArray), (∀ i, Spec.Elements (zs i) (a i).call) ∧
      (∀ i, Spec.UsesSymbols tableSymbol (a i).call) ∧ (∀ i, ∀ z ∈ zs i, z ∈ {z : ℤ | 1 ≤ z ∧ z ≤ 118}) ∧
      (∀ i j, i ≠ j → zs i ≠ zs j) ∧ Spec.Schedule a s ∧ (∀ i, (a i).call.outcome = .ok (f i, x i)) ∧
      s.map Prod.fst = [0, 1, 1, 0] ∧ f = ![ "Li_band_structure.npy", "Be_band_structure.npy"] ∧
      ∀ i d, WorkDir.after d (s.map Prod.snd) (f i) = some (.array (x i)) := by
  obtain ⟨⟨v, h⟩, v', h'⟩ := atom_saved 1 (by norm_num) 1
  obtain ⟨c, hc⟩ : ∃ c, c = BandCall.allElectron (lithiumLib diracLib)
    { lithiumTools 1 with symbol := tableSymbol } lithiumConfig { lithiumBands with emptyBands := 1 } := ⟨_, rfl⟩
  obtain ⟨c', hc'⟩ : ∃ c, c = BandCall.allElectron (berylliumLib 1)
    { lithiumTools 1 with symbol := tableSymbol } berylliumConfig { lithiumBands with emptyBands := 1 } := ⟨_, rfl⟩
  have e1 : Spec.Elements [3] c := by rw [hc]; exact ⟨1, _, rfl, by simp⟩
  have e2 : Spec.Elements [4] c' := by rw [hc']; exact ⟨1, _, rfl, by simp⟩
  have u1 : Spec.UsesSymbols tableSymbol c := by rw [hc]; rfl
  have u2 : Spec.UsesSymbols tableSymbol c' := by rw [hc']; rfl
  rw [← hc] at h
  rw [← hc'] at h'
  generalize SavedArray.channels 2 16 (2 + 1) v = y at h
  generalize SavedArray.channels 1 16 (2 + 1) v' = y' at h'
  have hsch : Spec.Schedule ![⟨c, none⟩, ⟨c', none⟩] [(0, .create "Li_band_structure.npy"),
      (1, .create "Be_band_structure.npy"), (1, .fill "Be_band_structure.npy" y'), (0, .fill "Li_band_structure.npy" y)] := by
    intro i
    fin_cases i
    · exact (steps_ok h).symm
    · exact (steps_ok h').symm
  have he : ∀ i, Spec.Elements (![[3], [4]] i) ((![⟨c, none⟩, ⟨c', none⟩] : Fin 2 → Attempt) i).call := by
    intro i; fin_cases i
    · exact e1
    · exact e2
  have hu : ∀ i, Spec.UsesSymbols tableSymbol ((![⟨c, none⟩, ⟨c', none⟩] : Fin 2 → Attempt) i).call := by
    intro i; fin_cases i
    · exact u1
    · exact u2
  have hz : ∀ i, ∀ z ∈ (![[3], [4]] : Fin 2 → List ℤ) i, z ∈ {z : ℤ | 1 ≤ z ∧ z ≤ 118} := by
    intro i; fin_cases i <;> simp
  have hd : ∀ i j, i ≠ j → (![[3], [4]] : Fin 2 → List ℤ) i ≠ ![[3], [4]] j := by decide
  have ho : ∀ i, ((![⟨c, none⟩, ⟨c', none⟩] : Fin 2 → Attempt) i).call.outcome
      = .ok ((![ "Li_band_structure.npy", "Be_band_structure.npy"] : Fin 2 → String) i,
        (![y, y'] : Fin 2 → SavedArray) i) := by
    intro i; fin_cases i
    · exact h
    · exact h'
  refine ⟨_, _, _, _, _, he, hu, hz, hd, hsch, ho, rfl, rfl, fun i d => ?_⟩
  exact (schedule_elements_partial tableSymbol _ table_chemicalSymbols d _ _ he hu hz hd _ hsch i _ _ (ho i)
    (by fin_cases i <;> rfl)).2

/-- `history_same_elements` for lithium with one and with two empty bands: the first result is lost. -/
example : ∃ c c' x x', c.outcome = .ok ("Li_band_structure.npy", x) ∧ c'.outcome = .ok ("Li_band_structure.npy", x') ∧
    ∀ g, WorkDir.history (fun _ => none) [⟨c, none⟩, ⟨c', none⟩] g ≠ some (.array x) := by
  obtain ⟨⟨v, h⟩, -⟩ := atom_saved 1 (by norm_num) 1
  obtain ⟨⟨v', h'⟩, -⟩ := atom_saved 2 (by norm_num) 1
  have hz : ∀ b, Spec.Elements [3] (BandCall.allElectron (lithiumLib diracLib)
      { lithiumTools 1 with symbol := tableSymbol } lithiumConfig b) := fun b => ⟨1, _, rfl, by simp⟩
  refine ⟨_, _, _, _, h, h', (history_same_elements tableSymbol _ _ [3] (hz _) (hz _) rfl rfl _ _ _ _ h h'
    fun e => ?_).2⟩
  cases e

end Jrystal
