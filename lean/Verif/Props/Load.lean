import Verif.Lemmas.Load
import Mathlib.Tactic.NormNum
import Mathlib.Tactic.Linarith

/- Property theorems for C50 (UPF files). -/
namespace Jrystal

/-! ### Text -/

/-- C50: `split()` returns exactly the words of the text. -/
theorem words_iff (s : Str) (ws : List Str) : pyWords s = ws ↔ Spec.Tokens s ws := by
  constructor
  · rintro rfl
    obtain ⟨ws, h⟩ := exists_tokens s
    rw [pyWords_of_tokens h]
    exact h
  · exact pyWords_of_tokens

/-- C50: `split('\n')` returns exactly the lines of the text. -/
theorem lines_iff (s : Str) (ls : List Str) :
    pyLines s = ls ↔ ls ≠ [] ∧ s = Spec.unlines ls ∧ ∀ x ∈ ls, '\n' ∉ x := by
  constructor
  · rintro rfl
    obtain ⟨l, ls, -, h2, h3, h4⟩ := linesFrom_eq s []
    rw [h2]
    exact ⟨by simp, h3, h4⟩
  · rintro ⟨h1, rfl, h3⟩
    match ls with
    | [] => exact absurd rfl h1
    | l :: ls => exact pyLines_unlines h3

/-- C50: `strip()` removes white space at both ends and nothing else. -/
theorem strip_spec (s : Str) :
    ∃ a b, s = a ++ pyStrip s ++ b ∧ (∀ c ∈ a, Spec.White c) ∧ (∀ c ∈ b, Spec.White c) ∧
      (∀ c ∈ (pyStrip s).head?, ¬Spec.White c) ∧ ∀ c ∈ (pyStrip s).getLast?, ¬Spec.White c := by
  unfold pyStrip
  set u := s.dropWhile pySpace with hu
  set v := u.reverse.dropWhile pySpace with hv
  have h1 : s = s.takeWhile pySpace ++ u := List.takeWhile_append_dropWhile.symm
  have h2 : u.reverse = u.reverse.takeWhile pySpace ++ v := List.takeWhile_append_dropWhile.symm
  have h3 : u = v.reverse ++ (u.reverse.takeWhile pySpace).reverse := by
    have := congrArg List.reverse h2
    rw [List.reverse_reverse, List.reverse_append] at this
    exact this
  have hhead : ∀ (t : Str) (c : Char), c ∈ (t.dropWhile pySpace).head? → ¬Spec.White c := by
    intro t c hc hw
    match hq : t.dropWhile pySpace with
    | [] => rw [hq] at hc; simp at hc
    | d :: r =>
      have := List.head_dropWhile_not pySpace (l := t) (by rw [hq]; simp)
      rw [hq] at hc
      simp at hc
      subst hc
      simp [hq] at this
      rw [(pySpace_iff d).2 hw] at this
      exact absurd this (by simp)
  refine ⟨s.takeWhile pySpace, (u.reverse.takeWhile pySpace).reverse, ?_, ?_, ?_, ?_, ?_⟩
  · rw [List.append_assoc, ← h3]; exact h1
  · exact fun c hc => (pySpace_iff c).1 (List.mem_takeWhile_imp hc)
  · exact fun c hc => (pySpace_iff c).1 (List.mem_takeWhile_imp (List.mem_reverse.1 hc))
  · intro c hc
    by_cases hnil : v.reverse = []
    · rw [hnil] at hc; simp at hc
    · refine hhead s c ?_
      rw [← hu, h3, List.head?_append_of_ne_nil _ hnil]
      exact hc
  · intro c hc
    rw [List.getLast?_reverse] at hc
    exact hhead u.reverse c hc

/-- C50: `extract_value` returns the text after the first colon, or the whole line without one, trimmed. -/
theorem extractValue_spec (key v : Str) (h : ':' ∉ key) :
    extractValue (key ++ ':' :: v) = pyStrip v ∧ extractValue key = pyStrip key := by
  unfold extractValue
  constructor
  · rw [List.dropWhile_append_of_pos (fun c hc => by
      simp only [ne_eq, decide_not, Bool.not_eq_true', decide_eq_false_iff_not]; rintro rfl; exact h hc)]
    simp
  · rw [List.dropWhile_eq_nil_iff.2 fun c hc => by
      simp only [ne_eq, decide_not, Bool.not_eq_true', decide_eq_false_iff_not]; rintro rfl; exact h hc]

/-! ### Valence configuration -/

private theorem scan_snoc (ls : List Str) (l : Str) :
    scanLines (ls ++ [l]) = scanStep (scanLines ls) (l, ls.length) := by
  unfold scanLines
  rw [List.zipIdx_append, List.foldl_append]
  simp

private theorem scan_fst {ls rest : List Str} (h : ∀ x ∈ rest, ¬Spec.Mentions "valence configuration" x) :
    (scanLines (ls ++ rest)).1 = (scanLines ls).1 := by
  induction rest using List.reverseRecOn with
  | nil => rw [List.append_nil]
  | append_singleton rest l ih =>
    rw [← List.append_assoc, scan_snoc]
    unfold scanStep
    simp only
    rw [if_neg fun hc : strIn _ (pyLower l) = true => h l (by simp) ((strIn_iff _ _).1 hc), ih fun x hx => h x (by simp [hx])]

private theorem scan_title {pre : List Str} {title : Str} (h : Spec.Mentions "valence configuration" title) :
    (scanLines (pre ++ [title])).1 = pre.length := by
  rw [scan_snoc]
  unfold scanStep
  simp only
  rw [if_pos (show strIn _ (pyLower title) = true from (strIn_iff _ _).2 h)]

private theorem mapM_exists {α β : Type} (f : α → Except PyErr β) (xs : List α) (h : ∀ x ∈ xs, ∃ y, f x = .ok y) :
    ∃ ys, xs.mapM f = .ok ys := by
  induction xs with
  | nil => exact ⟨[], rfl⟩
  | cons x xs ih =>
    obtain ⟨y, hy⟩ := h x (by simp)
    obtain ⟨ys, hys⟩ := ih fun z hz => h z (List.mem_cons_of_mem _ hz)
    exact ⟨y :: ys, (mapM_ok_iff _ _ _).2 (.cons hy ((mapM_ok_iff _ _ _).1 hys))⟩

private theorem parseInfo_eq (rd : NumReader) (ls : List Str) (hl : 10 ≤ ls.length) (hn : ∀ x ∈ ls, '\n' ∉ x)
    (rows : List ValenceRow)
    (hv : parseValence rd (slice ls ((scanLines ls).1 + 2) (scanLines ls).2) = .ok rows) :
    ∃ info, parseInfo rd (Spec.unlines ls) = .ok info ∧ info.valence = rows ∧
      info.generation = pyStrip (ls.getLastD []) ∧ info.head.length = 10 ∧
      ∀ i < 10, ∀ l, ls[i]? = some l →
        info.head[i]? = some (if i = 8 then pyStrip l else extractValue l) := by
  have e : pyLines (Spec.unlines ls) = ls :=
    (lines_iff _ _).2 ⟨by rintro rfl; simp at hl, rfl, hn⟩
  obtain ⟨head, hh⟩ := mapM_exists (fun i => (do
    let line ← wordAt ls i
    pure (if i = 8 then pyStrip line else extractValue line) : Except PyErr Str)) (List.range 10) (by
      intro i hi
      have hi' : i < ls.length := by have := List.mem_range.1 hi; omega
      refine ⟨_, (bind_ok_iff _ _ _).2 ⟨ls[i], ?_, rfl⟩⟩
      unfold wordAt
      rw [List.getElem?_eq_getElem hi'])
  have hF := (mapM_ok_iff _ _ _).1 hh
  refine ⟨⟨head, rows, pyStrip (ls.getLastD [])⟩, ?_, rfl, rfl, ?_, ?_⟩
  · unfold parseInfo
    rw [e]
    exact (bind_ok_iff _ _ _).2 ⟨head, hh, (bind_ok_iff _ _ _).2 ⟨rows, hv, rfl⟩⟩
  · rw [← hF.length_eq, List.length_range]
  · intro i hi l hil
    have hlen : i < head.length := by rw [← hF.length_eq, List.length_range]; exact hi
    have := hF.get (i := i) (by simpa using hi) hlen
    simp only [List.get_eq_getElem, List.getElem_range] at this
    obtain ⟨l', hl', hp⟩ := (bind_ok_iff _ _ _).1 this
    unfold wordAt at hl'
    rw [hil] at hl'
    cases hl'
    rw [List.getElem?_eq_getElem hlen]
    exact congrArg some (Except.ok.inj hp).symm

/-- A line that reads as the entry `row`: its words are the seven columns, possibly followed by others. -/
def ReadsAs (rd : NumReader) (line : Str) (row : ValenceRow) : Prop :=
  ∃ pn l occ rc ru ep more, Spec.Tokens line (row.nl :: pn :: l :: occ :: rc :: ru :: ep :: more) ∧
    rd.int (String.ofList pn) = some row.pn ∧ rd.int (String.ofList l) = some row.l ∧
    rd.float (String.ofList occ) = some row.occ ∧ rd.float (String.ofList rc) = some row.rcut ∧
    rd.float (String.ofList ru) = some row.rcutUs ∧ rd.float (String.ofList ep) = some row.ePseu ∧
    row.nl ≠ "nl".toList ∧ ¬"Generation configuration".toList <+: line

private theorem strip_nil {s : Str} (h : pyStrip s = []) : ∀ c ∈ s, Spec.White c := by
  obtain ⟨a, b, h1, h2, h3, -⟩ := strip_spec s
  rw [h, List.append_nil] at h1
  intro c hc
  rw [h1] at hc
  rcases List.mem_append.1 hc with hc | hc
  · exact h2 c hc
  · exact h3 c hc

private theorem isRow_of_reads {rd : NumReader} {line : Str} {row : ValenceRow} (h : ReadsAs rd line row) :
    isRow line = true ∧ readRow rd (pyWords line) = .ok row := by
  obtain ⟨pn, l, occ, rc, ru, ep, more, ht, h1, h2, h3, h4, h5, h6, h7, h8⟩ := h
  have hw := pyWords_of_tokens ht
  constructor
  · unfold isRow
    rw [hw]
    simp only [Bool.and_eq_true, decide_eq_true_eq, Bool.not_eq_true']
    refine ⟨⟨fun hs => ?_, ?_⟩, h7⟩
    · have := pyWords_of_tokens (.blank line (strip_nil hs))
      rw [hw] at this
      cases this
    · rw [Bool.eq_false_iff]
      exact fun hp => h8 (List.isPrefixOf_iff_prefix.1 hp)
  · rw [hw]
    unfold readRow wordAt readInt readFloat
    simp [h1, h2, h3, h4, h5, h6, bind, Except.bind, pure, Except.pure]

private theorem parseValence_rows {rd : NumReader} {lines : List Str} {rows : List ValenceRow}
    (h : List.Forall₂ (ReadsAs rd) (lines.filter fun l => decide (pyStrip l ≠ [])) rows) :
    parseValence rd lines = .ok rows := by
  unfold parseValence
  have e : lines.filter isRow = lines.filter fun l => decide (pyStrip l ≠ []) := by
    have hall : ∀ l ∈ lines.filter (fun l => decide (pyStrip l ≠ [])), isRow l = true := by
      intro l hl
      obtain ⟨row, hr⟩ : ∃ row, ReadsAs rd l row := by
        generalize lines.filter (fun l => decide (pyStrip l ≠ [])) = fs at h hl
        clear * - h hl
        induction h with
        | nil => simp at hl
        | cons h1 _ ih =>
          rcases List.mem_cons.1 hl with rfl | hl
          · exact ⟨_, h1⟩
          · exact ih hl
      exact (isRow_of_reads hr).1
    refine List.filter_congr fun l hl => ?_
    by_cases hs : pyStrip l = []
    · unfold isRow
      simp [hs]
    · rw [hall l (List.mem_filter.2 ⟨hl, by simpa using hs⟩)]
      simp [hs]
  rw [e, mapM_ok_iff]
  exact h.imp fun _ _ hr => (isRow_of_reads hr).2

/-- C50: when the line that mentions the generation configuration is the last one, `parse_pp_info` returns
exactly the entries between the column titles below the valence title and that line, in order, skipping blank
lines.  Missing: texts with lines after the generation line (`valence_lost`), which real files have. -/
theorem valence_rows_partial (rd : NumReader) (pre rows : List Str) (title cols gen : Str)
    (entries : List ValenceRow) (hpre : pre ≠ []) (ht : Spec.Mentions "valence configuration" title)
    (hg : Spec.Mentions "generation configuration" gen)
    (hno : ∀ x ∈ cols :: (rows ++ [gen]), ¬Spec.Mentions "valence configuration" x)
    (hl : 7 ≤ pre.length + rows.length) (hn : ∀ x ∈ pre ++ title :: cols :: (rows ++ [gen]), '\n' ∉ x)
    (hr : List.Forall₂ (ReadsAs rd) (rows.filter fun l => decide (pyStrip l ≠ [])) entries) :
    ∃ info, parseInfo rd (Spec.unlines (pre ++ title :: cols :: (rows ++ [gen]))) = .ok info ∧
      info.valence = entries ∧ info.generation = pyStrip gen := by
  have hv : (scanLines (pre ++ title :: cols :: (rows ++ [gen]))).1 = pre.length := by
    have := scan_fst (ls := pre ++ [title]) hno
    rw [List.append_assoc, List.singleton_append] at this
    rw [this, scan_title ht]
  have he : (scanLines (pre ++ title :: cols :: (rows ++ [gen]))).2 = pre.length + 2 + rows.length := by
    have e : pre ++ title :: cols :: (rows ++ [gen]) = (pre ++ title :: cols :: rows) ++ [gen] := by simp
    rw [e] at hv ⊢
    rw [scan_snoc] at hv ⊢
    unfold scanStep at hv ⊢
    simp only at hv ⊢
    rw [hv, if_pos ⟨by simpa using hpre, (strIn_iff _ _).2 hg⟩]
    simp
    omega
  have hs : slice (pre ++ title :: cols :: (rows ++ [gen])) (pre.length + 2) (pre.length + 2 + rows.length)
      = rows := by
    unfold slice
    have e : pre ++ title :: cols :: (rows ++ [gen]) = (pre ++ [title, cols]) ++ (rows ++ [gen]) := by simp
    have h2 : (pre ++ [title, cols]).length = pre.length + 2 := by simp
    rw [e, ← h2, List.take_length_add_append, List.drop_left]
    simp
  obtain ⟨info, h1, h2, h3, -⟩ := parseInfo_eq rd _ (by simp; omega) hn entries (by
    rw [hv, he, hs]
    exact parseValence_rows hr)
  refine ⟨info, h1, h2, ?_⟩
  rw [h3]
  congr 1
  have e : pre ++ title :: cols :: (rows ++ [gen]) = (pre ++ title :: cols :: rows) ++ [gen] := by simp
  rw [e, List.getLastD_concat]

/-- C50 fails for every text whose last line does not mention the generation configuration: the valence
configuration comes back empty, whatever the text lists. -/
theorem valence_lost (rd : NumReader) (ls : List Str) (last : Str) (hl : 9 ≤ ls.length)
    (hn : ∀ x ∈ ls ++ [last], '\n' ∉ x) (hg : ¬Spec.Mentions "generation configuration" last) :
    ∃ info, parseInfo rd (Spec.unlines (ls ++ [last])) = .ok info ∧ info.valence = [] := by
  have he : (scanLines (ls ++ [last])).2 = (scanLines (ls ++ [last])).1 := by
    rw [scan_snoc]
    unfold scanStep
    simp only
    rw [if_neg fun h => hg ((strIn_iff _ _).1 h.2)]
  obtain ⟨info, h1, h2, -⟩ := parseInfo_eq rd (ls ++ [last]) (by simpa using hl) hn [] (by
    rw [he]
    unfold slice
    rw [List.drop_eq_nil_of_le (by rw [List.length_take]; omega)]
    rfl)
  exact ⟨info, h1, h2⟩

/-- C50: the ten values of the head are read from the first ten lines, whatever the valence block. -/
theorem info_head (rd : NumReader) (ls : List Str) (hn : ∀ x ∈ ls, '\n' ∉ x) (info : PpInfo)
    (h : parseInfo rd (Spec.unlines ls) = .ok info) (hne : ls ≠ []) :
    10 ≤ ls.length ∧ ∀ i < 10, ∀ l, ls[i]? = some l →
      info.head[i]? = some (if i = 8 then pyStrip l else extractValue l) := by
  have e : pyLines (Spec.unlines ls) = ls := (lines_iff _ _).2 ⟨hne, rfl, hn⟩
  unfold parseInfo at h
  rw [e] at h
  obtain ⟨head, h1, h2⟩ := (bind_ok_iff _ _ _).1 h
  obtain ⟨rows, h3, h4⟩ := (bind_ok_iff _ _ _).1 h2
  have hF := (mapM_ok_iff _ _ _).1 h1
  have hlen : head.length = 10 := by rw [← hF.length_eq, List.length_range]
  have hi : ∀ i (hi : i < 10), ∃ l, ls[i]? = some l ∧
      head[i]? = some (if i = 8 then pyStrip l else extractValue l) := by
    intro i hi
    have := hF.get (i := i) (by simpa using hi) (by omega)
    simp only [List.get_eq_getElem, List.getElem_range] at this
    obtain ⟨l, hl, hp⟩ := (bind_ok_iff _ _ _).1 this
    unfold wordAt at hl
    refine ⟨l, ?_, ?_⟩
    · cases hq : ls[i]? with
      | none => rw [hq] at hl; cases hl
      | some l' => rw [hq] at hl; cases hl; rfl
    · rw [List.getElem?_eq_getElem (by omega)]
      exact congrArg some (Except.ok.inj hp).symm
  constructor
  · rcases Nat.lt_or_ge ls.length 10 with hlt | hge
    swap
    · exact hge
    obtain ⟨l, hl, -⟩ := hi 9 (by norm_num)
    rw [List.getElem?_eq_none (by omega)] at hl
    cases hl
  · intro i hi' l hl
    obtain ⟨l', hl', hh⟩ := hi i hi'
    rw [hl] at hl'
    cases hl'
    cases h4
    exact hh

/-! ### Files -/

private theorem takeWhile_lower (name : Str) :
    (Spec.fileElement name).map Char.toLower = (name.map Char.toLower).takeWhile (· ≠ '.') := by
  unfold Spec.fileElement
  induction name with
  | nil => rfl
  | cons c name ih =>
    rw [List.map_cons, List.takeWhile_cons, List.takeWhile_cons]
    by_cases hc : c = '.'
    · subst hc
      simp
    · rw [if_pos (by simpa using hc), if_pos (by simpa using fun h => hc ((toLower_dot c).1 h)),
        List.map_cons, ih]

private theorem mem_lower (s : Str) : '.' ∈ s.map Char.toLower ↔ '.' ∈ s := by
  rw [List.mem_map]
  constructor
  · rintro ⟨c, hc, h⟩
    rw [(toLower_dot c).1 h] at hc
    exact hc
  · exact fun h => ⟨'.', h, by decide⟩

/-- The test of a name is the specification, for symbols without a dot. -/
private theorem matches_iff {atom : Str} (ha : '.' ∉ atom) (name : Str) :
    upfMatches atom name = true ↔ Spec.IsUpfOf atom name := by
  unfold upfMatches Spec.IsUpfOf Spec.SameLetters pyLower
  rw [Bool.and_eq_true, List.isPrefixOf_iff_prefix, List.isSuffixOf_iff_suffix, takeWhile_lower]
  have hd : '.' ∉ atom.map Char.toLower := fun h => ha ((mem_lower atom).1 h)
  rw [← and_assoc]
  refine and_congr ?_ Iff.rfl
  constructor
  · rintro ⟨t, ht⟩
    rw [← mem_lower name, ← ht]
    refine ⟨?_, by simp⟩
    rw [List.append_assoc, List.takeWhile_append_of_pos (fun c hc => by
      simp only [ne_eq, decide_not, Bool.not_eq_true', decide_eq_false_iff_not]; rintro rfl; exact hd hc)]
    simp
  · rintro ⟨h1, h2⟩
    have h3 : (name.map Char.toLower).dropWhile (· ≠ '.') ≠ [] := by
      intro h
      have := List.dropWhile_eq_nil_iff.1 h '.' ((mem_lower name).2 h2)
      simp at this
    obtain ⟨c, r, hr⟩ := List.exists_cons_of_ne_nil h3
    have hc : c = '.' := by
      have := List.head_dropWhile_not (fun c : Char => decide (c ≠ '.')) (l := name.map Char.toLower) h3
      simp only [hr, List.head_cons] at this
      simpa using this
    refine ⟨r, ?_⟩
    have := (List.takeWhile_append_dropWhile (p := fun c : Char => decide (c ≠ '.'))
      (l := name.map Char.toLower))
    rw [h1, hr, hc] at this
    rw [List.append_assoc]
    exact this

/-- C50: `find_upf` succeeds exactly when the directory has a file of the element; it then returns the
directory text followed by the name of such a file, never a file of another element. -/
theorem findUpf_correct (listdir : Option Str → Option (List Str)) (dir atom : Str) (names : List Str)
    (hl : listdir (some dir) = some names) (ha : '.' ∉ atom) :
    ((∃ name ∈ names, Spec.IsUpfOf atom name) →
      ∃ name ∈ names, Spec.IsUpfOf atom name ∧ findUpf listdir (some dir) atom = .ok (dir ++ name)) ∧
    ((¬∃ name ∈ names, Spec.IsUpfOf atom name) → findUpf listdir (some dir) atom = .error .valueError) := by
  unfold findUpf
  simp only [hl]
  constructor
  · rintro ⟨name, hn, hm⟩
    cases hf : names.find? (upfMatches atom) with
    | none =>
      rw [List.find?_eq_none] at hf
      exact absurd ((matches_iff ha name).2 hm) (hf name hn)
    | some n =>
      exact ⟨n, List.mem_of_find?_eq_some hf, (matches_iff ha n).1 (List.find?_some hf), rfl⟩
  · intro h
    have : names.find? (upfMatches atom) = none :=
      List.find?_eq_none.2 fun n hn hm => h ⟨n, hn, (matches_iff ha n).1 hm⟩
    rw [this]

/-- C50: letter case of the symbol does not matter. -/
theorem findUpf_case (listdir : Option Str → Option (List Str)) (dir : Option Str) (atom atom' : Str)
    (h : Spec.SameLetters atom atom') : findUpf listdir dir atom = findUpf listdir dir atom' := by
  unfold findUpf
  have : upfMatches atom = upfMatches atom' := by
    funext name
    unfold upfMatches
    have h' : pyLower atom = pyLower atom' := h
    rw [h']
  rw [this]

/-- C50: with a single file of the element the result does not depend on the order of the listing. -/
theorem findUpf_order (names names' : List Str) (hp : names.Perm names') (dir atom : Str) (ha : '.' ∉ atom)
    (hu : ∀ n ∈ names, ∀ n' ∈ names, Spec.IsUpfOf atom n → Spec.IsUpfOf atom n' → n = n') :
    findUpf (fun _ => some names) (some dir) atom = findUpf (fun _ => some names') (some dir) atom := by
  by_cases h : ∃ name ∈ names, Spec.IsUpfOf atom name
  · obtain ⟨n, hn, hm, e⟩ := (findUpf_correct (fun _ => some names) dir atom names rfl ha).1 h
    obtain ⟨n', hn', hm', e'⟩ := (findUpf_correct (fun _ => some names') dir atom names' rfl ha).1
      (h.imp fun x hx => ⟨hp.mem_iff.1 hx.1, hx.2⟩)
    rw [e, e', hu n hn n' (hp.mem_iff.2 hn') hm hm']
  · rw [(findUpf_correct (fun _ => some names) dir atom names rfl ha).2 h,
      (findUpf_correct (fun _ => some names') dir atom names' rfl ha).2 fun ⟨x, hx, hm⟩ =>
        h ⟨x, hp.mem_iff.2 hx, hm⟩]

/-- C50 fails for directories written without a final slash: the text returned is the path of a file of the
directory exactly when the directory text ends with a slash.  (Names in a listing have no slash.) -/
theorem findUpf_path_iff (listdir : Option Str → Option (List Str)) (dir atom : Str) (names : List Str)
    (hl : listdir (some dir) = some names) (ha : '.' ∉ atom) (hs : ∀ n ∈ names, '/' ∉ n)
    (h : ∃ name ∈ names, Spec.IsUpfOf atom name) :
    (∃ name ∈ names, findUpf listdir (some dir) atom = .ok (Spec.pathOf dir name)) ↔
      dir.getLast? = some '/' := by
  obtain ⟨n, hn, hm, e⟩ := (findUpf_correct listdir dir atom names hl ha).1 h
  rw [e]
  unfold Spec.pathOf
  by_cases hd : dir.getLast? = some '/'
  · simp only [if_pos hd]
    exact ⟨fun _ => hd, fun _ => ⟨n, hn, rfl⟩⟩
  · simp only [if_neg hd]
    refine ⟨fun ⟨n', _, he⟩ => ?_, fun h => absurd h hd⟩
    have := List.append_cancel_left (Except.ok.inj he)
    exact absurd (by rw [this]; simp) (hs n hn)

/-- C50: without a directory `create` cannot find any file: the listing of the working directory is
searched, but the path cannot be formed. -/
theorem findUpf_none (listdir : Option Str → Option (List Str)) (atom path : Str) :
    findUpf listdir none atom ≠ .ok path := by
  unfold findUpf
  split
  · simp
  · split <;> simp

/-! ### XML -/

/-- C50: the numbers of an element are the words of its text, read in order. -/
theorem readFloats_iff (rd : NumReader) (x : Xml) (vs : List ℚ) :
    readFloats rd x = .ok vs ↔ ∃ tag attrs t cs ws, x = .elem tag attrs (some t) cs ∧ Spec.Tokens t ws ∧
      List.Forall₂ (fun w v => rd.float (String.ofList w) = some v) ws vs := by
  have hf : ∀ (w : Str) (v : ℚ), readFloat rd w = .ok v ↔ rd.float (String.ofList w) = some v := by
    intro w v
    unfold readFloat
    cases rd.float (String.ofList w) <;> simp
  obtain ⟨tag, attrs, t, cs⟩ := x
  unfold readFloats
  rw [bind_ok_iff]
  cases t with
  | none =>
    constructor
    · rintro ⟨t, h, -⟩
      cases h
    · rintro ⟨_, _, _, _, _, h, -⟩
      cases h
  | some t =>
    constructor
    · rintro ⟨t', h, h'⟩
      cases h
      exact ⟨tag, attrs, t, cs, _, rfl, (words_iff t _).1 rfl, ((mapM_ok_iff _ _ _).1 h').imp fun w v => (hf w v).1⟩
    · rintro ⟨_, _, _, _, ws, h, ht, hF⟩
      cases h
      refine ⟨t, rfl, ?_⟩
      rw [(words_iff t ws).2 ht]
      exact (mapM_ok_iff _ _ _).2 (hF.imp fun w v => (hf w v).2)

/-- C50: the projectors of a file are its elements named `PP_BETA...`, in file order, each with its own values
and angular momentum. -/
theorem parseNonlocal_beta (rd : NumReader) (x : Xml) (nl : NlEntry) (h : parseNonlocal rd x = .ok nl) :
    (nl.beta = none ↔ ∀ c ∈ x.children, ¬"PP_BETA".toList <+: c.tag) ∧
    ∀ bs, nl.beta = some bs → List.Forall₂ (fun c b => readFloats rd c = .ok b.values ∧
      b.angularMomentum = c.get "angular_momentum".toList ∧ b.cutoffRadius = c.get "cutoff_radius".toList)
      (x.children.filter fun c => decide ("PP_BETA".toList <+: c.tag)) bs := by
  have e : (x.children.filter fun c => "PP_BETA".toList.isPrefixOf c.tag)
      = x.children.filter fun c => decide ("PP_BETA".toList <+: c.tag) := by
    refine List.filter_congr fun c _ => ?_
    rw [Bool.eq_iff_iff, List.isPrefixOf_iff_prefix, decide_eq_true_eq]
  unfold parseNonlocal at h
  simp only [e, bind_ok_iff] at h
  obtain ⟨beta, hb, dij, -, aug, -, h⟩ := h
  cases h
  simp only
  split at hb
  · rename_i hnil
    cases hb
    refine ⟨⟨fun _ c hc hp => ?_, fun _ => rfl⟩, fun bs h => by cases h⟩
    have : c ∈ x.children.filter fun c => decide ("PP_BETA".toList <+: c.tag) :=
      List.mem_filter.2 ⟨hc, decide_eq_true hp⟩
    rw [hnil] at this
    simp at this
  · rename_i hne
    obtain ⟨bs, hbs, rfl⟩ := (map_ok_iff _ _ _).1 hb
    constructor
    · refine ⟨fun h => (by cases h), fun h => absurd ?_ hne⟩
      exact List.filter_eq_nil_iff.2 fun c hc hd => h c hc (of_decide_eq_true hd)
    · intro bs' h
      cases h
      refine ((mapM_ok_iff _ _ _).1 hbs).imp fun c b hcb => ?_
      unfold readBeta at hcb
      rw [bind_ok_iff] at hcb
      obtain ⟨v, hv, hcb⟩ := hcb
      cases hcb
      exact ⟨hv, rfl, rfl⟩

/-! ### Per-atom lists -/

/-- The data of one atom. -/
structure NcAtom where
  valence : ℤ
  rGrid : List ℚ
  rAb : List ℚ
  lMax : ℤ
  lMaxRho : Option ℤ
  localGrid : List ℚ
  numBeta : ℕ
  betaGrid : List (List ℚ)
  betaCutoff : Option Str
  dMatrix : List (List ℚ)
  angular : List ℤ
  valenceConf : List ValenceRow

/-- `a` is the data that the file `pp` gives for an atom: values at the mesh points with positive radius, the
local potential and D in Hartree (half the value in Rydberg), projectors divided by the radius. -/
structure NcAtom.Of (rd : NumReader) (pp : PpDict) (a : NcAtom) : Prop where
  valence : ∃ w z, pp.header.lookup "z_valence".toList = some w ∧ rd.float (String.ofList w) = some z ∧
    a.valence = truncQ z
  rGrid : a.rGrid = pp.r.filter fun r => decide (0 < r)
  rAb : pp.rab.length = pp.r.length ∧ a.rAb = Spec.onPositive pp.r pp.rab
  lMax : ∃ w, pp.header.lookup "l_max".toList = some w ∧ rd.int (String.ofList w) = some a.lMax
  lMaxRho : (pp.header.lookup "l_max_rho".toList = none ∧ a.lMaxRho = none) ∨
    ∃ w l, pp.header.lookup "l_max_rho".toList = some w ∧ rd.int (String.ofList w) = some l ∧
      a.lMaxRho = some l
  localGrid : pp.loc.length = pp.r.length ∧ a.localGrid = (Spec.onPositive pp.r pp.loc).map (· / 2)
  projectors : ∀ bs, pp.nl.beta = some bs → a.numBeta = bs.length ∧
    (∀ b ∈ bs, b.values.length = pp.r.length) ∧
    a.betaGrid = bs.map (fun b => Spec.onPositive pp.r ((b.values.zip pp.r).map fun p => p.1 / p.2)) ∧
    List.Forall₂ (fun b l => ∃ w, b.angularMomentum = some w ∧ rd.int (String.ofList w) = some l) bs
      a.angular ∧
    a.betaCutoff = bs.getLast?.bind BetaEntry.cutoffRadius ∧
    ∃ d, pp.nl.dij = some d ∧ d.length = bs.length * bs.length ∧
      a.dMatrix = (List.range bs.length).map fun i =>
        (List.range bs.length).map fun j => d.getD (i * bs.length + j) 0 / 2
  noProjector : pp.nl.beta = none → a.numBeta = 1 ∧ a.betaGrid = [a.rGrid.map fun _ => 0] ∧
    a.angular = [0] ∧ a.betaCutoff = none ∧ a.dMatrix = [[0]]
  valenceConf : a.valenceConf = pp.info.valence

/-- The lists with one more atom at the end. -/
private def NcLists.addAll (L : NcLists) (as : List NcAtom) : NcLists :=
  ⟨L.valence ++ as.map (·.valence), L.rGrid ++ as.map (·.rGrid), L.rAb ++ as.map (·.rAb),
    L.rCutoff ++ as.map (fun _ => none), L.lMax ++ as.map (·.lMax), L.lMaxRho ++ as.map (·.lMaxRho),
    L.localGrid ++ as.map (·.localGrid), L.localCharge ++ as.map (·.valence), L.numBeta ++ as.map (·.numBeta),
    L.betaGrid ++ as.map (·.betaGrid), L.betaCutoff ++ as.map (·.betaCutoff), L.dMatrix ++ as.map (·.dMatrix),
    L.angular ++ as.map (·.angular), L.valenceConf ++ as.map (·.valenceConf)⟩

private theorem mask_iff {α : Type} (r : List ℚ) (x y : List α) :
    takePositive r x = .ok y ↔ x.length = r.length ∧ y = Spec.onPositive r x := by
  have e : ∀ l : List (ℚ × α), (l.filter fun p => decide (0 < p.1)).map (·.2)
      = l.filterMap fun p => if 0 < p.1 then some p.2 else none := by
    intro l
    induction l with
    | nil => rfl
    | cons p l ih =>
      by_cases hp : 0 < p.1
      · rw [List.filter_cons_of_pos (by simpa using hp), List.map_cons, ih,
          List.filterMap_cons_some (b := p.2) (by simp [hp])]
      · rw [List.filter_cons_of_neg (by simpa using hp), ih, List.filterMap_cons_none (by simp [hp])]
  unfold takePositive Spec.onPositive
  rw [e]
  split
  · rename_i h
    exact ⟨fun h' => ⟨h.symm, (Except.ok.inj h').symm⟩, fun h' => by rw [h'.2]⟩
  · rename_i h
    exact ⟨fun h' => (by cases h'), fun h' => absurd h'.1.symm h⟩

private theorem onPositive_self (r : List ℚ) : Spec.onPositive r r = r.filter fun x => decide (0 < x) := by
  unfold Spec.onPositive
  induction r with
  | nil => rfl
  | cons x r ih =>
    rw [List.zip_cons_cons, List.filterMap_cons, List.filter_cons, ih]
    by_cases hx : 0 < x <;> simp [hx]

private theorem onPositive_divide (junk : ℕ → ℚ) (den : ℚ → ℚ) (r v : List ℚ) (h : v.length = r.length) (k : ℕ) :
    Spec.onPositive r (((v.zip r).zipIdx k).map fun p => if 0 < p.1.2 then p.1.1 / den p.1.2 else junk p.2)
      = Spec.onPositive r ((v.zip r).map fun p => p.1 / den p.2) := by
  unfold Spec.onPositive
  induction r generalizing v k with
  | nil => simp
  | cons x r ih =>
    match v, h with
    | y :: v, h =>
      have h' : v.length = r.length := by simpa using h
      simp only [List.zip_cons_cons, List.zipIdx_cons, List.map_cons, List.filterMap_cons]
      rw [ih v h' (k + 1)]
      by_cases hx : 0 < x <;> simp [hx]

private theorem divide_iff (junk : ℕ → ℚ) (den : ℚ → ℚ) (v r y : List ℚ) :
    divideWhere junk den v r = .ok y ↔ v.length = r.length ∧
      y = (v.zip r).zipIdx.map fun p => if 0 < p.1.2 then p.1.1 / den p.1.2 else junk p.2 := by
  unfold divideWhere
  split
  · rename_i h
    exact ⟨fun h' => ⟨h, (Except.ok.inj h').symm⟩, fun h' => by rw [h'.2]⟩
  · rename_i h
    exact ⟨fun h' => (by cases h'), fun h' => absurd h'.1 h⟩

private theorem header_iff (h : List (Str × Str)) (k : String) (w : Str) :
    headerAt h k = .ok w ↔ h.lookup k.toList = some w := by
  unfold headerAt
  cases h.lookup k.toList with
  | none => simp
  | some v => simp

private theorem float_iff (rd : NumReader) (w : Str) (z : ℚ) :
    readFloat rd w = .ok z ↔ rd.float (String.ofList w) = some z := by
  unfold readFloat
  cases rd.float (String.ofList w) with
  | none => simp
  | some v => simp

private theorem int_iff (rd : NumReader) (w : Str) (z : ℤ) :
    readInt rd w = .ok z ↔ rd.int (String.ofList w) = some z := by
  unfold readInt
  cases rd.int (String.ofList w) with
  | none => simp
  | some v => simp

private theorem intOpt_iff (rd : NumReader) (w : Option Str) (z : ℤ) :
    readIntOpt rd w = .ok z ↔ ∃ v, w = some v ∧ rd.int (String.ofList v) = some z := by
  cases w with
  | none => exact ⟨fun h => (by cases h), fun ⟨_, h, _⟩ => (by cases h)⟩
  | some v =>
    refine ⟨fun h => ⟨v, rfl, (int_iff rd v z).1 h⟩, ?_⟩
    rintro ⟨v', h, h'⟩
    cases h
    exact (int_iff rd v z).2 h'

private theorem reshape_iff (m : ℕ) (d : List ℚ) (y : List (List ℚ)) :
    reshapeSq m d = .ok y ↔ d.length = m * m ∧
      y = (List.range m).map fun i => (List.range m).map fun j => d.getD (i * m + j) 0 := by
  have e : d.length = m * m → ((List.range m).map fun i => slice d (i * m) ((i + 1) * m))
      = (List.range m).map fun i => (List.range m).map fun j => d.getD (i * m + j) 0 := by
    intro hd
    refine List.map_congr_left fun i hi => ?_
    have hi' : i < m := List.mem_range.1 hi
    have hle : (i + 1) * m ≤ d.length := by rw [hd]; exact Nat.mul_le_mul_right m hi'
    have hsl : (slice d (i * m) ((i + 1) * m)).length = m := by
      unfold slice
      rw [List.length_drop, List.length_take, Nat.min_eq_left hle, Nat.add_mul, Nat.one_mul,
        Nat.add_sub_cancel_left]
    refine List.ext_getElem (by rw [hsl]; simp) fun j h1 h2 => ?_
    have hj : j < m := by simpa using h2
    have hlt : i * m + j < d.length := by
      have : i * m + j < (i + 1) * m := by rw [Nat.add_mul, Nat.one_mul]; omega
      omega
    have hel : (slice d (i * m) ((i + 1) * m))[j] = d[i * m + j] := by
      simp only [slice, List.getElem_drop, List.getElem_take]
    rw [hel]
    simp only [List.getElem_map, List.getElem_range]
    simp [List.getD, hlt]
  unfold reshapeSq
  split
  · rename_i h
    rw [e h]
    exact ⟨fun h' => ⟨h, (Except.ok.inj h').symm⟩, fun h' => by rw [h'.2]⟩
  · rename_i h
    exact ⟨fun h' => (by cases h'), fun h' => absurd h'.1 h⟩

private theorem rows_iff (rd : NumReader) (junk : ℕ → ℚ) (r : List ℚ) (bs : List BetaEntry)
    (grid : List (List ℚ)) (ang : List ℤ) :
    (∃ rows : List (List ℚ × ℤ), bs.mapM (fun b => (do
        let v ← divideWhere junk id b.values r
        let l ← readIntOpt rd b.angularMomentum
        pure (v, l) : Except PyErr (List ℚ × ℤ))) = .ok rows ∧
      rows.mapM (fun p => takePositive r p.1) = .ok grid ∧ ang = rows.map (·.2)) ↔
    (∀ b ∈ bs, b.values.length = r.length) ∧
      grid = bs.map (fun b => Spec.onPositive r ((b.values.zip r).map fun p => p.1 / p.2)) ∧
      List.Forall₂ (fun b l => ∃ w, b.angularMomentum = some w ∧ rd.int (String.ofList w) = some l) bs ang := by
  simp only [mapM_ok_iff]
  induction bs generalizing grid ang with
  | nil =>
    constructor
    · rintro ⟨rows, h1, h2, rfl⟩
      cases h1
      cases h2
      exact ⟨by simp, rfl, .nil⟩
    · rintro ⟨-, rfl, h⟩
      cases h
      exact ⟨[], .nil, .nil, rfl⟩
  | cons b bs ih =>
    constructor
    · rintro ⟨rows, h1, h2, rfl⟩
      cases h1 with
      | @cons _ row _ rows h1 h1' =>
        cases h2 with
        | @cons _ g _ gs h2 h2' =>
          obtain ⟨i1, i2, i3⟩ := (ih gs (rows.map (·.2))).1 ⟨rows, h1', h2', rfl⟩
          obtain ⟨v, hv, h1⟩ := (bind_ok_iff _ _ _).1 h1
          obtain ⟨l, hl, h1⟩ := (bind_ok_iff _ _ _).1 h1
          cases h1
          obtain ⟨hlen, rfl⟩ := (divide_iff _ _ _ _ _).1 hv
          obtain ⟨-, rfl⟩ := (mask_iff _ _ _).1 h2
          refine ⟨?_, ?_, ?_⟩
          · intro b' hb'
            rcases List.mem_cons.1 hb' with rfl | hb'
            · exact hlen
            · exact i1 b' hb'
          · rw [List.map_cons, ← i2, onPositive_divide junk id r b.values hlen 0]
            rfl
          · rw [List.map_cons]
            exact .cons ((intOpt_iff _ _ _).1 hl) i3
    · rintro ⟨h1, rfl, h3⟩
      cases h3 with
      | @cons _ l _ ls h3 h3' =>
        obtain ⟨rows, i1, i2, rfl⟩ := (ih _ ls).2 ⟨fun b' hb' => h1 b' (List.mem_cons_of_mem _ hb'), rfl, h3'⟩
        have hlen := h1 b (by simp)
        refine ⟨(_, l) :: rows, .cons ((bind_ok_iff _ _ _).2 ⟨_, (divide_iff junk id _ _ _).2 ⟨hlen, rfl⟩,
          (bind_ok_iff _ _ _).2 ⟨l, (intOpt_iff _ _ _).2 h3, rfl⟩⟩) i1, ?_, rfl⟩
        rw [List.map_cons]
        refine .cons ((mask_iff _ _ _).2 ⟨?_, ?_⟩) i2
        · simp [hlen]
        · exact (onPositive_divide junk id r b.values hlen 0).symm

private theorem step_iff (rd : NumReader) (junk : ℕ → ℚ) (acc acc' : NcLists) (pp : PpDict) :
    ncStep rd junk acc pp = .ok acc' ↔ ∃ a : NcAtom, a.Of rd pp ∧ acc' = acc.addAll [a] := by
  have hrho : ∀ o : Option ℤ, (match pp.header.lookup "l_max_rho".toList with
      | none => pure none
      | some w => (readInt rd w).map some : Except PyErr (Option ℤ)) = .ok o ↔
      (pp.header.lookup "l_max_rho".toList = none ∧ o = none) ∨
      ∃ w l, pp.header.lookup "l_max_rho".toList = some w ∧ rd.int (String.ofList w) = some l ∧ o = some l := by
    intro o
    cases pp.header.lookup "l_max_rho".toList with
    | none =>
      constructor
      · intro h; cases h; exact Or.inl ⟨rfl, rfl⟩
      · rintro (⟨-, rfl⟩ | ⟨w, l, h, -⟩)
        · rfl
        · cases h
    | some w =>
      simp only [map_ok_iff, int_iff]
      constructor
      · rintro ⟨l, h, rfl⟩
        exact Or.inr ⟨w, l, rfl, h, rfl⟩
      · rintro (⟨h, -⟩ | ⟨w', l, h, h', rfl⟩)
        · cases h
        · cases h
          exact ⟨l, h', rfl⟩
  unfold ncStep
  simp only [bind_ok_iff, mask_iff, header_iff, float_iff, int_iff]
  cases hb : pp.nl.beta with
  | none =>
    simp only
    constructor
    · rintro ⟨z, ⟨w, hw, hz⟩, rg, ⟨-, rfl⟩, rab, ⟨hrab, rfl⟩, lm, ⟨wl, hwl, hlm⟩, lmr, hlmr, loc, ⟨hloc, rfl⟩, h⟩
      cases h
      refine ⟨⟨truncQ z, pp.r.filter fun r => decide (0 < r), Spec.onPositive pp.r pp.rab, lm, lmr,
        (Spec.onPositive pp.r pp.loc).map (· / 2), 1, [(pp.r.filter fun r => decide (0 < r)).map fun _ => 0],
        none, [[0]], [0], pp.info.valence⟩,
        ⟨⟨w, z, hw, hz, rfl⟩, rfl, ⟨hrab, rfl⟩, ⟨wl, hwl, hlm⟩, (hrho _).1 hlmr, ⟨hloc, rfl⟩,
          (fun bs h => by rw [hb] at h; cases h), fun _ => ⟨rfl, rfl, rfl, rfl, rfl⟩, rfl⟩, ?_⟩
      unfold NcLists.addAll
      simp [onPositive_self]
    · rintro ⟨a, ha, rfl⟩
      obtain ⟨w, z, hw, hz, hv⟩ := ha.valence
      obtain ⟨wl, hwl, hlm⟩ := ha.lMax
      obtain ⟨n1, n2, n3, n4, n5⟩ := ha.noProjector hb
      refine ⟨z, ⟨w, hw, hz⟩, a.rGrid, ⟨trivial, by rw [ha.rGrid, onPositive_self]⟩, a.rAb, ha.rAb, a.lMax,
        ⟨wl, hwl, hlm⟩, a.lMaxRho, (hrho _).2 ha.lMaxRho, _, ⟨ha.localGrid.1, rfl⟩, ?_⟩
      unfold NcLists.addAll
      simp only [List.map_cons, List.map_nil, n1, n2, n3, n4, n5, hv, ha.localGrid.2, ha.valenceConf]
      simp [pure, Except.pure]
  | some bs =>
    simp only [bind_ok_iff]
    constructor
    · rintro ⟨z, ⟨w, hw, hz⟩, rg, ⟨-, rfl⟩, rab, ⟨hrab, rfl⟩, lm, ⟨wl, hwl, hlm⟩, lmr, hlmr, loc, ⟨hloc, rfl⟩,
        rows, hrows, grid, hgrid, d, hd, h⟩
      cases h
      obtain ⟨b1, b2, b3⟩ := (rows_iff rd junk pp.r bs grid (rows.map (·.2))).1 ⟨rows, hrows, hgrid, rfl⟩
      obtain ⟨d0, hd0, hd1, hd2⟩ : ∃ d0, pp.nl.dij = some d0 ∧ d0.length = bs.length * bs.length ∧
          d = (List.range bs.length).map fun i =>
            (List.range bs.length).map fun j => d0.getD (i * bs.length + j) 0 := by
        cases hdd : pp.nl.dij with
        | none => rw [hdd] at hd; cases hd
        | some d0 =>
          rw [hdd] at hd
          exact ⟨d0, rfl, (reshape_iff _ _ _).1 hd⟩
      refine ⟨⟨truncQ z, pp.r.filter fun r => decide (0 < r), Spec.onPositive pp.r pp.rab, lm, lmr,
        (Spec.onPositive pp.r pp.loc).map (· / 2), bs.length, grid, bs.getLast?.bind BetaEntry.cutoffRadius,
        d.map fun row => row.map (· / 2), rows.map (·.2), pp.info.valence⟩,
        ⟨⟨w, z, hw, hz, rfl⟩, rfl, ⟨hrab, rfl⟩, ⟨wl, hwl, hlm⟩, (hrho _).1 hlmr, ⟨hloc, rfl⟩,
          (fun bs' h => ?_), (fun h => by rw [hb] at h; cases h), rfl⟩, ?_⟩
      · rw [hb] at h
        cases h
        refine ⟨rfl, b1, b2, b3, rfl, d0, hd0, hd1, ?_⟩
        rw [hd2]
        simp
      · unfold NcLists.addAll
        simp [onPositive_self]
    · rintro ⟨a, ha, rfl⟩
      obtain ⟨w, z, hw, hz, hv⟩ := ha.valence
      obtain ⟨wl, hwl, hlm⟩ := ha.lMax
      obtain ⟨n1, n2, n3, n4, n5, d0, hd0, hd1, hd2⟩ := ha.projectors bs hb
      obtain ⟨rows, r1, r2, r3⟩ := (rows_iff rd junk pp.r bs a.betaGrid a.angular).2 ⟨n2, n3, n4⟩
      refine ⟨z, ⟨w, hw, hz⟩, a.rGrid, ⟨trivial, by rw [ha.rGrid, onPositive_self]⟩, a.rAb, ha.rAb, a.lMax,
        ⟨wl, hwl, hlm⟩, a.lMaxRho, (hrho _).2 ha.lMaxRho, _, ⟨ha.localGrid.1, rfl⟩, rows, r1, a.betaGrid, r2,
        _, by rw [hd0]; exact (reshape_iff _ _ _).2 ⟨hd1, rfl⟩, ?_⟩
      unfold NcLists.addAll
      simp only [List.map_cons, List.map_nil, n1, n5, hd2, r3, hv, ha.localGrid.2, ha.valenceConf]
      simp [pure, Except.pure]

private theorem addAll_addAll (L : NcLists) (as bs : List NcAtom) :
    (L.addAll as).addAll bs = L.addAll (as ++ bs) := by
  unfold NcLists.addAll
  simp

private theorem fold_iff (rd : NumReader) (junk : ℕ → ℚ) (acc L : NcLists) (pps : List PpDict) :
    pps.foldlM (ncStep rd junk) acc = .ok L ↔
      ∃ as : List NcAtom, List.Forall₂ (fun pp a => NcAtom.Of rd pp a) pps as ∧ L = acc.addAll as := by
  induction pps generalizing acc with
  | nil =>
    rw [List.foldlM_nil]
    constructor
    · intro h
      cases h
      exact ⟨[], .nil, by unfold NcLists.addAll; simp⟩
    · rintro ⟨as, h, rfl⟩
      cases h
      unfold NcLists.addAll
      simp [pure, Except.pure]
  | cons pp pps ih =>
    rw [List.foldlM_cons, bind_ok_iff]
    constructor
    · rintro ⟨acc', h1, h2⟩
      obtain ⟨a, ha, rfl⟩ := (step_iff _ _ _ _ _).1 h1
      obtain ⟨as, has, rfl⟩ := (ih _).1 h2
      exact ⟨a :: as, .cons ha has, by rw [addAll_addAll]; rfl⟩
    · rintro ⟨as, h, rfl⟩
      cases h with
      | @cons _ a _ as h1 h2 =>
        exact ⟨_, (step_iff _ _ _ _ _).2 ⟨a, h1, rfl⟩, (ih _).2 ⟨as, h2, by rw [addAll_addAll]; rfl⟩⟩

/-- C50: `create` succeeds exactly when for every symbol, in order, a file is found, parsed and consistent;
its lists then hold, atom by atom in the order of the symbols, the data of that atom's file. -/
theorem ncCreate_aligned (rd : NumReader) (junk : ℕ → ℚ) (listdir : Option Str → Option (List Str))
    (parse : Str → Except PyErr Xml) (dir : Option Str) (symbols : List Str) (L : NcLists) :
    ncCreate rd junk listdir parse dir symbols = .ok L ↔
      ∃ as : List NcAtom,
        List.Forall₂ (fun s a => ∃ path root pp, findUpf listdir dir s = .ok path ∧ parse path = .ok root ∧
          parseUpf rd root = .ok pp ∧ NcAtom.Of rd pp a) symbols as ∧
        L = ⟨as.map (·.valence), as.map (·.rGrid), as.map (·.rAb), as.map (fun _ => none), as.map (·.lMax),
          as.map (·.lMaxRho), as.map (·.localGrid), as.map (·.valence), as.map (·.numBeta),
          as.map (·.betaGrid), as.map (·.betaCutoff), as.map (·.dMatrix), as.map (·.angular),
          as.map (·.valenceConf)⟩ := by
  unfold ncCreate loadAll
  rw [bind_ok_iff]
  simp only [mapM_ok_iff, fold_iff, bind_ok_iff]
  constructor
  · rintro ⟨pps, h1, as, h2, rfl⟩
    refine ⟨as, ?_, by simp [NcLists.addAll, NcLists.empty]⟩
    clear * - h1 h2
    induction h1 generalizing as with
    | nil => cases h2; exact .nil
    | cons h _ ih =>
      cases h2 with
      | cons h2 h2' =>
        obtain ⟨path, hp, root, hr, hpp⟩ := h
        exact .cons ⟨path, root, _, hp, hr, hpp, h2⟩ (ih _ h2')
  · rintro ⟨as, h, rfl⟩
    obtain ⟨pps, h1, h2⟩ : ∃ pps, List.Forall₂ (fun s pp => ∃ path, findUpf listdir dir s = .ok path ∧
        ∃ root, parse path = .ok root ∧ parseUpf rd root = .ok pp) symbols pps ∧
        List.Forall₂ (fun pp a => NcAtom.Of rd pp a) pps as := by
      induction h with
      | nil => exact ⟨[], .nil, .nil⟩
      | cons h _ ih =>
        obtain ⟨path, root, pp, hp, hr, hpp, ha⟩ := h
        obtain ⟨pps, i1, i2⟩ := ih
        exact ⟨pp :: pps, .cons ⟨path, hp, root, hr, hpp⟩ i1, .cons ha i2⟩
    exact ⟨pps, h1, as, h2, by simp [NcLists.addAll, NcLists.empty]⟩

/-- C50: the memory that `np.divide(..., where=...)` leaves untouched never reaches the result. -/
theorem ncCreate_junk (rd : NumReader) (junk junk' : ℕ → ℚ) (listdir : Option Str → Option (List Str))
    (parse : Str → Except PyErr Xml) (dir : Option Str) (symbols : List Str) (L : NcLists) :
    ncCreate rd junk listdir parse dir symbols = .ok L ↔ ncCreate rd junk' listdir parse dir symbols = .ok L := by
  rw [ncCreate_aligned, ncCreate_aligned]

/-- C50: the valence charge is the integer in the header; a fractional charge is cut down. -/
theorem truncQ_spec (q : ℚ) : (∀ m : ℤ, q = m → truncQ q = m) ∧
    (0 ≤ q → (truncQ q : ℚ) ≤ q ∧ q < truncQ q + 1) := by
  unfold truncQ
  constructor
  · rintro m rfl
    split <;> simp
  · intro h
    rw [if_pos h]
    exact ⟨Rat.floor_le q, by have := Rat.lt_floor (x := q); linarith⟩

/-! ### Ultrasoft lists -/

/-- C50 fails for ultrasoft augmentation data: atoms whose file has no augmentation leave no entry, so the
lists are those of the remaining atoms and are not aligned with the symbols. -/
theorem us_skips (rd : NumReader) (junk : ℕ → ℚ) (eigTop : List (List ℚ) → ℚ) (acc : UsLists)
    (pps : List PpDict) :
    pps.foldlM (usStep rd junk eigTop) acc
      = (pps.filter fun pp => pp.nl.aug.isSome).foldlM (usStep rd junk eigTop) acc := by
  induction pps generalizing acc with
  | nil => rfl
  | cons pp pps ih =>
    cases h : pp.nl.aug with
    | none =>
      rw [List.filter_cons_of_neg (by simp [h]), List.foldlM_cons, ← ih acc]
      have : usStep rd junk eigTop acc pp = .ok acc := by
        unfold usStep
        rw [h]
        rfl
      rw [this]
      rfl
    | some a =>
      rw [List.filter_cons_of_pos (by simp [h]), List.foldlM_cons, List.foldlM_cons]
      cases usStep rd junk eigTop acc pp with
      | error e => rfl
      | ok acc' => exact ih acc'

private theorem usStep_length {rd : NumReader} {junk : ℕ → ℚ} {eigTop : List (List ℚ) → ℚ} {acc acc' : UsLists}
    {pp : PpDict} (hs : pp.nl.aug.isSome) (h : usStep rd junk eigTop acc pp = .ok acc') :
    acc'.qMatrix.length = acc.qMatrix.length + 1 ∧ acc'.qij.length = acc.qij.length + 1 ∧
      acc'.qWithL.length = acc.qWithL.length + 1 := by
  obtain ⟨a, ha⟩ := Option.isSome_iff_exists.1 hs
  unfold usStep at h
  rw [ha] at h
  simp only [bind_ok_iff] at h
  obtain ⟨q, -, qm, -, h⟩ := h
  split at h
  · cases h
  · simp only [bind_ok_iff] at h
    obtain ⟨nl, -, es, -, f, -, h⟩ := h
    cases h
    simp

/-- C50: the number of augmentation entries is the number of atoms whose file has augmentation, while the
other lists have one entry per symbol. -/
theorem us_lengths (rd : NumReader) (junk : ℕ → ℚ) (eigTop : List (List ℚ) → ℚ)
    (listdir : Option Str → Option (List Str)) (parse : Str → Except PyErr Xml) (dir : Option Str)
    (symbols : List Str) (nc : NcLists) (us : UsLists)
    (h : usCreate rd junk eigTop listdir parse dir symbols = .ok (nc, us)) :
    nc.valence.length = symbols.length ∧ ∃ pps : List PpDict,
      List.Forall₂ (fun s pp => ∃ path root, findUpf listdir dir s = .ok path ∧ parse path = .ok root ∧
        parseUpf rd root = .ok pp) symbols pps ∧
      us.qMatrix.length = (pps.filter fun pp => pp.nl.aug.isSome).length ∧
      us.qij.length = (pps.filter fun pp => pp.nl.aug.isSome).length ∧
      us.qWithL.length = (pps.filter fun pp => pp.nl.aug.isSome).length := by
  unfold usCreate at h
  simp only [bind_ok_iff] at h
  obtain ⟨nc', h1, pps, h2, us', h3, h4⟩ := h
  cases h4
  obtain ⟨as, hF, hL⟩ := (ncCreate_aligned _ _ _ _ _ _ _).1 h1
  refine ⟨by rw [hL]; simp [hF.length_eq], pps, ?_, ?_⟩
  · unfold loadAll at h2
    rw [mapM_ok_iff] at h2
    refine h2.imp fun s pp hs => ?_
    simp only [bind_ok_iff] at hs
    obtain ⟨path, hp, root, hr, hpp⟩ := hs
    exact ⟨path, root, hp, hr, hpp⟩
  · rw [us_skips] at h3
    have key : ∀ (l : List PpDict) (acc out : UsLists), (∀ pp ∈ l, pp.nl.aug.isSome) →
        l.foldlM (usStep rd junk eigTop) acc = .ok out →
        out.qMatrix.length = acc.qMatrix.length + l.length ∧ out.qij.length = acc.qij.length + l.length ∧
          out.qWithL.length = acc.qWithL.length + l.length := by
      intro l
      induction l with
      | nil =>
        intro acc out _ h
        cases h
        simp
      | cons pp l ih =>
        intro acc out hs h
        rw [List.foldlM_cons, bind_ok_iff] at h
        obtain ⟨acc', ha, hb⟩ := h
        obtain ⟨e1, e2, e3⟩ := usStep_length (hs pp (by simp)) ha
        obtain ⟨f1, f2, f3⟩ := ih acc' out (fun q hq => hs q (List.mem_cons_of_mem _ hq)) hb
        rw [f1, f2, f3, e1, e2, e3, List.length_cons]
        omega
    have := key _ _ _ (fun pp hp => (List.mem_filter.1 hp).2) h3
    simpa using this

/-- C50: an augmentation function is stored at its pair of indices (from one) and at the swapped pair, on the
full mesh: at mesh points with radius zero or less the stored value is whatever was in memory. -/
theorem us_qij (rd : NumReader) (junk : ℕ → ℚ) (num nl : ℕ) (withL : Bool) (r : List ℚ)
    (q q' : ℕ → ℕ → ℕ → List ℚ) (e : QijEntry) (h : setQij rd junk num nl withL r q e = .ok q') :
    ∃ (m n l : ℕ) (v : List ℚ), q' m n l = v ∧ q' n m l = v ∧ e.values.length = r.length ∧
      v = (e.values.zip r).zipIdx.map (fun p => if 0 < p.1.2 then p.1.1 / p.1.2 ^ 2 else junk p.2) ∧
      (∀ a b c, (a, b, c) ≠ (m, n, l) → (a, b, c) ≠ (n, m, l) → q' a b c = q a b c) ∧
      (∀ w k, e.firstIndex = some w → rd.int (String.ofList w) = some k → 1 ≤ k → (m : ℤ) = k - 1) ∧
      (∀ w k, e.secondIndex = some w → rd.int (String.ofList w) = some k → 1 ≤ k → (n : ℤ) = k - 1) := by
  unfold setQij at h
  simp only [bind_ok_iff] at h
  obtain ⟨m, hm, n, hn, l, hl, v, hv, m', hm', n', hn', l', hl', h⟩ := h
  obtain ⟨hlen, hv⟩ := (divide_iff _ _ _ _ _).1 hv
  have hax : ∀ (k : ℤ) (k' : ℕ), axisIdx num (k - 1) = .ok k' → 1 ≤ k → (k' : ℤ) = k - 1 := by
    intro k k' hk h1
    unfold axisIdx at hk
    split at hk
    · cases hk
      omega
    · split at hk
      · omega
      · cases hk
  obtain ⟨wm, hwm, hm⟩ := (intOpt_iff _ _ _).1 hm
  obtain ⟨wn, hwn, hn⟩ := (intOpt_iff _ _ _).1 hn
  have hfin : (∀ w k, e.firstIndex = some w → rd.int (String.ofList w) = some k → 1 ≤ k → (m' : ℤ) = k - 1) ∧
      (∀ w k, e.secondIndex = some w → rd.int (String.ofList w) = some k → 1 ≤ k → (n' : ℤ) = k - 1) := by
    constructor
    · intro w k hw hk h1
      rw [hwm] at hw
      cases hw
      rw [hm] at hk
      cases hk
      exact hax m m' hm' h1
    · intro w k hw hk h1
      rw [hwn] at hw
      cases hw
      rw [hn] at hk
      cases hk
      exact hax n n' hn' h1
  have hq := Except.ok.inj h
  refine ⟨m', n', l', v, ?_, ?_, hlen, hv, ?_, hfin⟩
  · rw [← hq]
    split
    · simp
    · by_cases hmn : m' = n' <;> simp [hmn]
  · rw [← hq]
    split
    · rename_i hmn
      subst hmn
      rw [hm'] at hn'
      cases hn'
      simp
    · simp
  · intro a b c h1 h2
    rw [← hq]
    have h1' : ¬(a = m' ∧ b = n' ∧ c = l') := by rintro ⟨rfl, rfl, rfl⟩; exact h1 rfl
    have h2' : ¬(a = n' ∧ b = m' ∧ c = l') := by rintro ⟨rfl, rfl, rfl⟩; exact h2 rfl
    split
    · simp [h1']
    · simp [h1', h2']

/-! Non-vacuity. -/

/-- A reader that knows the numbers of the silicon file. -/
def siReader : NumReader where
  int s := if s = "0" then some 0 else if s = "1" then some 1 else none
  float s := if s = "2.00" then some 2 else if s = "0.000" then some 0 else if s = "0.000000" then some 0 else none

/-- The information block of the silicon file shipped with the code
(/repo/pseudopotential/normconserving/Si.pz-vbc.UPF). -/
def siInfo : List String :=
  ["Generated by new atomic code, or converted to UPF format", "Author:", "Generation date:",
   "Pseudopotential type: NC", "Element: Si", "Functional:  SLA  PZ   NOGX NOGC",
   "Suggested minimum cutoff for wavefunctions:   0. Ry",
   "Suggested minimum cutoff for charge density:   0. Ry",
   "The Pseudo was generated with a Non-Relativistic Calculation",
   "L component and cutoff radius for Local Potential:  0   0.0000"]

/-- A valence line of the silicon file. -/
def sRow : Str := "3S  0  0  2.00      0.000      0.000     0.000000".toList
private def pRow : Str := "3P  0  1  2.00      0.000      0.000     0.000000".toList

private theorem siRows : List.Forall₂ (ReadsAs siReader)
    ([sRow, pRow].filter fun l => decide (pyStrip l ≠ []))
    [⟨"3S".toList, 0, 0, 2, 0, 0, 0⟩, ⟨"3P".toList, 0, 1, 2, 0, 0, 0⟩] := by
  have e : [sRow, pRow].filter (fun l => decide (pyStrip l ≠ [])) = [sRow, pRow] := by decide +kernel
  rw [e]
  refine .cons ?_ (.cons ?_ .nil)
  · exact ⟨"0".toList, "0".toList, "2.00".toList, "0.000".toList, "0.000".toList, "0.000000".toList, [],
      (words_iff _ _).1 (by decide +kernel), by decide +kernel, by decide +kernel, by decide +kernel,
      by decide +kernel, by decide +kernel, by decide +kernel, by decide +kernel, by decide +kernel⟩
  · exact ⟨"0".toList, "1".toList, "2.00".toList, "0.000".toList, "0.000".toList, "0.000000".toList, [],
      (words_iff _ _).1 (by decide +kernel), by decide +kernel, by decide +kernel, by decide +kernel,
      by decide +kernel, by decide +kernel, by decide +kernel, by decide +kernel, by decide +kernel⟩

/-- The silicon file meets the hypotheses of `valence_rows_partial`. -/
example : ∃ info, parseInfo siReader (Spec.unlines (siInfo.map String.toList ++
      "Valence configuration:".toList :: "nl pn  l   occ       Rcut    Rcut US       E pseu".toList ::
        ([sRow, pRow] ++ ["Generation configuration: not available.".toList]))) = .ok info ∧
    info.valence = [⟨"3S".toList, 0, 0, 2, 0, 0, 0⟩, ⟨"3P".toList, 0, 1, 2, 0, 0, 0⟩] ∧
    info.generation = pyStrip "Generation configuration: not available.".toList :=
  valence_rows_partial siReader _ _ _ _ _ _ (by simp [siInfo]) (by unfold Spec.Mentions; decide +kernel)
    (by unfold Spec.Mentions; decide +kernel)
    (by unfold Spec.Mentions; decide +kernel) (by decide +kernel) (by decide +kernel) siRows

/-- C50 fails: the same file with a line about the pseudization after the generation configuration, as the
generator writes it, loses both valence entries. -/
theorem valence_rows_wrong :
    (∃ info, parseInfo siReader (Spec.unlines (siInfo.map String.toList ++
        ["Valence configuration:".toList, "nl pn  l   occ       Rcut    Rcut US       E pseu".toList,
          sRow, pRow, "Generation configuration: not available.".toList] ++
        ["Pseudization used: troullier-martins".toList])) = .ok info ∧ info.valence = []) ∧
    List.Forall₂ (ReadsAs siReader) ([sRow, pRow].filter fun l => decide (pyStrip l ≠ []))
      [⟨"3S".toList, 0, 0, 2, 0, 0, 0⟩, ⟨"3P".toList, 0, 1, 2, 0, 0, 0⟩] :=
  ⟨valence_lost siReader _ _ (by decide +kernel) (by decide +kernel)
    (by unfold Spec.Mentions; decide +kernel), siRows⟩

/-- A directory with several elements: the file of carbon is not taken for calcium or chlorine. -/
example : findUpf (fun _ => some ["Ca.pz-n-vbc.UPF".toList, "Cl.pz-bhs.UPF".toList, "C.pz-vbc.UPF".toList])
    (some "pp/".toList) "c".toList = .ok "pp/C.pz-vbc.UPF".toList := by decide +kernel

/-- Without the final slash the path names another file. -/
example : findUpf (fun _ => some ["C.pz-vbc.UPF".toList]) (some "pp".toList) "C".toList
    = .ok "ppC.pz-vbc.UPF".toList := by decide +kernel

/-- A small file: three mesh points, the first at radius zero, one projector. -/
def smallUpf : Xml :=
  .elem "UPF".toList [] none
    [.elem "PP_INFO".toList [] (some (Spec.unlines (siInfo.map String.toList ++
        ["Valence configuration:".toList, "nl pn l".toList, sRow, "Generation configuration:".toList]))) [],
     .elem "PP_HEADER".toList [("z_valence".toList, "2.00".toList), ("l_max".toList, "1".toList)] none [],
     .elem "PP_MESH".toList [] none [.elem "PP_R".toList [] (some "0.000 2.00 2.00".toList) [],
       .elem "PP_RAB".toList [] (some "2.00 2.00 2.00".toList) []],
     .elem "PP_LOCAL".toList [] (some "2.00 0.000 2.00".toList) [],
     .elem "PP_NONLOCAL".toList [] none
       [.elem "PP_BETA.1".toList [("angular_momentum".toList, "1".toList)] (some "2.00 2.00 0.000".toList) [],
        .elem "PP_DIJ".toList [] (some "2.00".toList) []]]

/-- `create` succeeds on two atoms of this file, whatever was in memory, and drops the point at zero. -/
example (junk : ℕ → ℚ) : ∃ L, ncCreate siReader junk (fun _ => some ["Si.x.UPF".toList])
      (fun _ => .ok smallUpf) (some "d/".toList) ["Si".toList, "SI".toList] = .ok L ∧
    L.rGrid = [[2, 2], [2, 2]] ∧ L.betaGrid = [[[1, 0]], [[1, 0]]] ∧ L.dMatrix = [[[1]], [[1]]] ∧
    L.valence = [2, 2] := by
  have h : ∃ L, ncCreate siReader (fun _ => 0) (fun _ => some ["Si.x.UPF".toList])
      (fun _ => .ok smallUpf) (some "d/".toList) ["Si".toList, "SI".toList] = .ok L ∧
    L.rGrid = [[2, 2], [2, 2]] ∧ L.betaGrid = [[[1, 0]], [[1, 0]]] ∧ L.dMatrix = [[[1]], [[1]]] ∧
    L.valence = [2, 2] := by
    have e : (match ncCreate siReader (fun _ => 0) (fun _ => some ["Si.x.UPF".toList])
        (fun _ => .ok smallUpf) (some "d/".toList) ["Si".toList, "SI".toList] with
      | .ok L => decide (L.rGrid = [[2, 2], [2, 2]] ∧ L.betaGrid = [[[1, 0]], [[1, 0]]] ∧
          L.dMatrix = [[[1]], [[1]]] ∧ L.valence = [2, 2])
      | .error _ => false) = true := by decide +kernel
    cases hc : ncCreate siReader (fun _ => 0) (fun _ => some ["Si.x.UPF".toList])
        (fun _ => .ok smallUpf) (some "d/".toList) ["Si".toList, "SI".toList] with
    | error _ => rw [hc] at e; cases e
    | ok L =>
      rw [hc] at e
      exact ⟨L, rfl, by simpa using e⟩
  obtain ⟨L, h1, h2⟩ := h
  exact ⟨L, (ncCreate_junk _ _ _ _ _ _ _ _).1 h1, h2⟩

end Jrystal
