import Verif.Props.Load

/-
C50: what is read from a UPF file, block by block.  `parseUpf` succeeds exactly when the file has the blocks it needs with
readable numbers, and then the dictionary holds these numbers and attributes and no others.
-/
namespace Jrystal

/-- The first of several elements with a tag. -/
def Spec.First (cs : List Xml) (tag : String) (c : Xml) : Prop :=
  ∃ pre post, cs = pre ++ c :: post ∧ c.tag = tag.toList ∧ ∀ d ∈ pre, d.tag ≠ tag.toList

/-- No element has the tag. -/
def Spec.Missing (cs : List Xml) (tag : String) : Prop := ∀ c ∈ cs, c.tag ≠ tag.toList

/-- The text of an element is a list of numbers separated by white space. -/
def Spec.Numbers (rd : NumReader) (x : Xml) (vs : List ℚ) : Prop :=
  ∃ tag attrs t cs ws, x = .elem tag attrs (some t) cs ∧ Spec.Tokens t ws ∧
    List.Forall₂ (fun w v => rd.float (String.ofList w) = some v) ws vs

/-- An attribute that is an integer. -/
def Spec.IntAttr (rd : NumReader) (x : Xml) (name : String) (z : ℤ) : Prop :=
  ∃ w, x.get name.toList = some w ∧ rd.int (String.ofList w) = some z

/-- A block of numbers that may be missing. -/
def Spec.OptNumbers (rd : NumReader) (cs : List Xml) (tag : String) : Option (List ℚ) → Prop
  | none => Spec.Missing cs tag
  | some vs => ∃ c, Spec.First cs tag c ∧ Spec.Numbers rd c vs

/-- The elements whose tags start with `start`, in the order of the file, each read as an entry; `none` when there is no
such element. -/
def Spec.Entries {α : Type} (cs : List Xml) (start : String) (reads : Xml → α → Prop) : Option (List α) → Prop
  | none => ∀ c ∈ cs, ¬start.toList <+: c.tag
  | some es => es ≠ [] ∧ List.Forall₂ reads (cs.filter fun c => decide (start.toList <+: c.tag)) es

/-- A projector: its attributes and values. -/
structure Spec.IsBeta (rd : NumReader) (x : Xml) (b : BetaEntry) : Prop where
  index : b.index = x.get "index".toList
  label : b.label = x.get "label".toList
  angular : b.angularMomentum = x.get "angular_momentum".toList
  cutoffIndex : b.cutoffRadiusIndex = x.get "cutoff_radius_index".toList
  cutoff : b.cutoffRadius = x.get "cutoff_radius".toList
  usCutoff : b.usCutoffRadius = x.get "ultrasoft_cutoff_radius".toList
  values : Spec.Numbers rd x b.values

/-- An augmentation function: its indices, angular momentum and values. -/
structure Spec.IsQij (rd : NumReader) (x : Xml) (e : QijEntry) : Prop where
  first : e.firstIndex = x.get "first_index".toList
  second : e.secondIndex = x.get "second_index".toList
  composite : e.compositeIndex = x.get "composite_index".toList
  angular : e.angularMomentum = x.get "angular_momentum".toList
  values : Spec.Numbers rd x e.values

/-- The augmentation block. -/
structure Spec.IsAug (rd : NumReader) (x : Xml) (a : AugEntry) : Prop where
  withL : a.qWithL = true ↔ ∃ w ∈ ["true", "True", "T", "t", "1", "TRUE"], x.get "q_with_l".toList = some w.toList
  nqf : Spec.IntAttr rd x "nqf" a.nqf
  nqlc : Spec.IntAttr rd x "nqlc" a.nqlc
  q : Spec.OptNumbers rd x.children "PP_Q" a.q
  qij : Spec.Entries x.children "PP_QIJ" (Spec.IsQij rd) a.qij

/-- The nonlocal block. -/
structure Spec.IsNonlocal (rd : NumReader) (x : Xml) (nl : NlEntry) : Prop where
  beta : Spec.Entries x.children "PP_BETA" (Spec.IsBeta rd) nl.beta
  dij : Spec.OptNumbers rd x.children "PP_DIJ" nl.dij
  aug : (nl.aug = none ∧ Spec.Missing x.children "PP_AUGMENTATION") ∨
    ∃ c a, nl.aug = some a ∧ Spec.First x.children "PP_AUGMENTATION" c ∧ Spec.IsAug rd c a

/-- The content of a file. -/
structure Spec.IsUpf (rd : NumReader) (root : Xml) (pp : PpDict) : Prop where
  info : ∃ c tag attrs t cs, Spec.First root.children "PP_INFO" c ∧ c = .elem tag attrs (some t) cs ∧
    parseInfo rd (pyStrip t) = .ok pp.info
  header : ∃ c, Spec.First root.children "PP_HEADER" c ∧ pp.header = c.attrs
  mesh : ∃ c, Spec.First root.children "PP_MESH" c ∧ pp.meshAttrs = c.attrs ∧
    (∃ d, Spec.First c.children "PP_R" d ∧ Spec.Numbers rd d pp.r) ∧
    (∃ d, Spec.First c.children "PP_RAB" d ∧ Spec.Numbers rd d pp.rab)
  nonlocal : ∃ c, Spec.First root.children "PP_NONLOCAL" c ∧ Spec.IsNonlocal rd c pp.nl
  loc : ∃ c, Spec.First root.children "PP_LOCAL" c ∧ Spec.Numbers rd c pp.loc

/-! ### Lemmas -/

private theorem find_some_iff (x : Xml) (tag : String) (c : Xml) :
    x.find tag = some c ↔ Spec.First x.children tag c := by
  unfold Xml.find Spec.First
  rw [List.find?_eq_some_iff_append]
  constructor
  · rintro ⟨h, pre, post, e, hp⟩
    exact ⟨pre, post, e, by simpa using h, fun d hd => by simpa using hp d hd⟩
  · rintro ⟨pre, post, e, h, hp⟩
    exact ⟨by simpa using h, pre, post, e, fun d hd => by simpa using hp d hd⟩

private theorem find_none_iff (x : Xml) (tag : String) : x.find tag = none ↔ Spec.Missing x.children tag := by
  unfold Xml.find Spec.Missing
  rw [List.find?_eq_none]
  simp

private theorem child_iff (x : Xml) (tag : String) (c : Xml) :
    x.child tag = .ok c ↔ Spec.First x.children tag c := by
  rw [← find_some_iff]
  unfold Xml.child
  cases x.find tag <;> simp

private theorem intAttr_iff (rd : NumReader) (x : Xml) (name : String) (z : ℤ) :
    readIntOpt rd (x.get name.toList) = .ok z ↔ Spec.IntAttr rd x name z := by
  unfold Spec.IntAttr
  cases x.get name.toList with
  | none => exact ⟨fun h => (by cases h), fun ⟨_, h, _⟩ => (by cases h)⟩
  | some w =>
    unfold readIntOpt readInt
    cases h : rd.int (String.ofList w) <;> simp [h]

private theorem optNumbers_iff (rd : NumReader) (x : Xml) (tag : String) (o : Option (List ℚ)) :
    (match x.find tag with
      | none => pure none
      | some c => (readFloats rd c).map some) = .ok o ↔ Spec.OptNumbers rd x.children tag o := by
  cases h : x.find tag with
  | none =>
    have hm := (find_none_iff x tag).1 h
    constructor
    · intro e
      cases e
      exact hm
    · intro e
      cases o with
      | none => rfl
      | some vs =>
        obtain ⟨c, hc, -⟩ := e
        rw [(find_some_iff x tag c).2 hc] at h
        cases h
  | some c =>
    have hf := (find_some_iff x tag c).1 h
    constructor
    · intro e
      obtain ⟨vs, hv, rfl⟩ := (map_ok_iff _ _ _).1 e
      exact ⟨c, hf, (readFloats_iff rd c vs).1 hv⟩
    · intro e
      cases o with
      | none => rw [(find_none_iff x tag).2 e] at h; cases h
      | some vs =>
        obtain ⟨c', hc, hv⟩ := e
        rw [(find_some_iff x tag c').2 hc] at h
        cases h
        exact (map_ok_iff _ _ _).2 ⟨vs, (readFloats_iff rd _ vs).2 hv, rfl⟩

private theorem entries_iff {α : Type} (read : Xml → Except PyErr α) (reads : Xml → α → Prop)
    (hr : ∀ x a, read x = .ok a ↔ reads x a) (cs : List Xml) (start : String) (o : Option (List α)) :
    (if (cs.filter fun c => start.toList.isPrefixOf c.tag) = [] then pure none
      else ((cs.filter fun c => start.toList.isPrefixOf c.tag).mapM read).map some) = .ok o ↔
      Spec.Entries cs start reads o := by
  have e : (cs.filter fun c => start.toList.isPrefixOf c.tag) = cs.filter fun c => decide (start.toList <+: c.tag) := by
    refine List.filter_congr fun c _ => ?_
    rw [Bool.eq_iff_iff, List.isPrefixOf_iff_prefix, decide_eq_true_eq]
  have hnil : (cs.filter fun c => decide (start.toList <+: c.tag)) = [] ↔ ∀ c ∈ cs, ¬start.toList <+: c.tag := by
    rw [List.filter_eq_nil_iff]
    simp
  rw [e]
  split
  · rename_i hn
    constructor
    · intro h
      cases h
      exact hnil.1 hn
    · intro h
      cases o with
      | none => rfl
      | some es =>
        obtain ⟨h1, h2⟩ := h
        rw [hn] at h2
        cases h2
        exact absurd rfl h1
  · rename_i hn
    constructor
    · intro h
      obtain ⟨es, hes, rfl⟩ := (map_ok_iff _ _ _).1 h
      have hF := (mapM_ok_iff _ _ _).1 hes
      refine ⟨?_, hF.imp fun x a => (hr x a).1⟩
      rintro rfl
      cases h' : cs.filter fun c => decide (start.toList <+: c.tag) with
      | nil => exact hn h'
      | cons c l => rw [h'] at hF; cases hF
    · intro h
      cases o with
      | none => exact absurd (hnil.2 h) hn
      | some es => exact (map_ok_iff _ _ _).2 ⟨es, (mapM_ok_iff _ _ _).2 (h.2.imp fun x a => (hr x a).2), rfl⟩

private theorem readBeta_iff (rd : NumReader) (x : Xml) (b : BetaEntry) :
    readBeta rd x = .ok b ↔ Spec.IsBeta rd x b := by
  unfold readBeta
  rw [bind_ok_iff]
  constructor
  · rintro ⟨v, hv, h⟩
    cases h
    exact ⟨rfl, rfl, rfl, rfl, rfl, rfl, (readFloats_iff rd x v).1 hv⟩
  · rintro ⟨h1, h2, h3, h4, h5, h6, h7⟩
    refine ⟨b.values, (readFloats_iff rd x _).2 h7, ?_⟩
    rw [← h1, ← h2, ← h3, ← h4, ← h5, ← h6]
    rfl

private theorem readQij_iff (rd : NumReader) (x : Xml) (e : QijEntry) :
    readQij rd x = .ok e ↔ Spec.IsQij rd x e := by
  unfold readQij
  rw [bind_ok_iff]
  constructor
  · rintro ⟨v, hv, h⟩
    cases h
    exact ⟨rfl, rfl, rfl, rfl, (readFloats_iff rd x v).1 hv⟩
  · rintro ⟨h1, h2, h3, h4, h5⟩
    refine ⟨e.values, (readFloats_iff rd x _).2 h5, ?_⟩
    rw [← h1, ← h2, ← h3, ← h4]
    rfl

private theorem withL_iff (o : Option Str) :
    (match o with
      | none => false
      | some w => decide (String.ofList w ∈ ["true", "True", "T", "t", "1", "TRUE"])) = true ↔
      ∃ w ∈ ["true", "True", "T", "t", "1", "TRUE"], o = some w.toList := by
  cases o with
  | none => simp
  | some w =>
    simp only [decide_eq_true_eq]
    constructor
    · intro h
      exact ⟨_, h, by rw [String.toList_ofList]⟩
    · rintro ⟨v, hv, e⟩
      rw [Option.some.inj e, String.ofList_toList]
      exact hv

private theorem readAug_iff (rd : NumReader) (x : Xml) (a : AugEntry) :
    readAug rd x = .ok a ↔ Spec.IsAug rd x a := by
  unfold readAug
  simp only [bind_ok_iff, intAttr_iff,
    entries_iff (readQij rd) (Spec.IsQij rd) (readQij_iff rd)]
  constructor
  · rintro ⟨f, hf, l, hl, q, hq, qs, hqs, h⟩
    cases h
    exact ⟨withL_iff _, hf, hl, (optNumbers_iff rd x _ _).1 hq, hqs⟩
  · rintro ⟨h1, h2, h3, h4, h5⟩
    refine ⟨_, h2, _, h3, _, (optNumbers_iff rd x _ _).2 h4, _, h5, ?_⟩
    obtain ⟨w, f, l, q, qs⟩ := a
    have e := Bool.eq_iff_iff.2 ((withL_iff (x.get "q_with_l".toList)).trans h1.symm)
    exact congrArg (fun b => (Except.ok ⟨b, f, l, q, qs⟩ : Except PyErr AugEntry)) e

private theorem parseNonlocal_iff (rd : NumReader) (x : Xml) (nl : NlEntry) :
    parseNonlocal rd x = .ok nl ↔ Spec.IsNonlocal rd x nl := by
  unfold parseNonlocal
  simp only [bind_ok_iff, entries_iff (readBeta rd) (Spec.IsBeta rd) (readBeta_iff rd)]
  constructor
  · rintro ⟨b, hb, d, hd, a, ha, h⟩
    cases h
    refine ⟨hb, (optNumbers_iff rd x _ _).1 hd, ?_⟩
    cases hf : x.find "PP_AUGMENTATION" with
    | none =>
      rw [hf] at ha
      cases ha
      exact Or.inl ⟨rfl, (find_none_iff _ _).1 hf⟩
    | some c =>
      rw [hf] at ha
      obtain ⟨a', ha', rfl⟩ := (map_ok_iff _ _ _).1 ha
      exact Or.inr ⟨c, a', rfl, (find_some_iff _ _ _).1 hf, (readAug_iff rd c a').1 ha'⟩
  · rintro ⟨hb, hd, ha⟩
    refine ⟨_, hb, _, (optNumbers_iff rd x _ _).2 hd, nl.aug, ?_, rfl⟩
    rcases ha with ⟨e, hm⟩ | ⟨c, a, e, hf, ha⟩
    · rw [(find_none_iff _ _).2 hm, e]
      rfl
    · rw [(find_some_iff _ _ _).2 hf, e]
      exact (map_ok_iff _ _ _).2 ⟨a, (readAug_iff rd c a).2 ha, rfl⟩

/-! ### Theorems -/

/-- C50: `parse_upf` gives a dictionary exactly when the file has the blocks and numbers of that dictionary.  In particular
a file without one of the required blocks, or with a word that is not a number, is refused. -/
theorem parseUpf_iff (rd : NumReader) (root : Xml) (pp : PpDict) :
    parseUpf rd root = .ok pp ↔ Spec.IsUpf rd root pp := by
  have hnum : ∀ (x : Xml) (tag : String) (vs : List ℚ), (x.child tag >>= readFloats rd) = .ok vs ↔
      ∃ c, Spec.First x.children tag c ∧ Spec.Numbers rd c vs := by
    intro x tag vs
    simp only [bind_ok_iff, child_iff, readFloats_iff]
    rfl
  have hinfo : ∀ i : PpInfo,
      (root.child "PP_INFO" >>= Xml.textOf >>= fun t => parseInfo rd (pyStrip t)) = .ok i ↔
      ∃ c tag attrs t cs, Spec.First root.children "PP_INFO" c ∧ c = .elem tag attrs (some t) cs ∧
        parseInfo rd (pyStrip t) = .ok i := by
    intro i
    simp only [bind_ok_iff, child_iff]
    constructor
    · rintro ⟨t, ⟨c, hc, ht⟩, hi⟩
      obtain ⟨tag, attrs, o, cs⟩ := c
      cases o with
      | none => cases ht
      | some t' =>
        cases ht
        exact ⟨_, tag, attrs, t, cs, hc, rfl, hi⟩
    · rintro ⟨c, tag, attrs, t, cs, hc, rfl, hi⟩
      exact ⟨t, ⟨_, hc, rfl⟩, hi⟩
  unfold parseUpf
  rw [bind_ok_iff]
  simp only [hinfo]
  constructor
  · rintro ⟨i, hi, h⟩
    simp only [bind_ok_iff, child_iff] at h
    obtain ⟨hd, hhd, m, hm, r, hr, rab, hrab, nl, hnl, loc, hloc, h⟩ := h
    cases h
    refine ⟨hi, ⟨hd, hhd, rfl⟩, ⟨m, hm, rfl, ?_, ?_⟩, ?_, ?_⟩
    · obtain ⟨d, hd', hv⟩ := hr
      exact ⟨d, hd', (readFloats_iff rd d _).1 hv⟩
    · obtain ⟨d, hd', hv⟩ := hrab
      exact ⟨d, hd', (readFloats_iff rd d _).1 hv⟩
    · cases hf : root.find "PP_NONLOCAL" with
      | none => rw [hf] at hnl; cases hnl
      | some c =>
        rw [hf] at hnl
        exact ⟨c, (find_some_iff _ _ _).1 hf, (parseNonlocal_iff rd c nl).1 hnl⟩
    · obtain ⟨d, hd', hv⟩ := hloc
      exact ⟨d, hd', (readFloats_iff rd d _).1 hv⟩
  · rintro ⟨hi, ⟨hd, hhd, e1⟩, ⟨m, hm, e2, hr, hrab⟩, ⟨c, hc, hnl⟩, hloc⟩
    refine ⟨pp.info, hi, ?_⟩
    simp only [bind_ok_iff, child_iff]
    refine ⟨hd, hhd, m, hm, pp.r, ?_, pp.rab, ?_, pp.nl, ?_, pp.loc, ?_, ?_⟩
    · obtain ⟨d, hd', hv⟩ := hr
      exact ⟨d, hd', (readFloats_iff rd d _).2 hv⟩
    · obtain ⟨d, hd', hv⟩ := hrab
      exact ⟨d, hd', (readFloats_iff rd d _).2 hv⟩
    · rw [(find_some_iff _ _ _).2 hc]
      exact (parseNonlocal_iff rd c pp.nl).2 hnl
    · obtain ⟨d, hd', hv⟩ := hloc
      exact ⟨d, hd', (readFloats_iff rd d _).2 hv⟩
    · rw [← e1, ← e2]
      rfl

/-- Witness: the small file of `Verif.Props.Load` has a content. -/
example : ∃ pp, Spec.IsUpf siReader smallUpf pp := by
  have h : (match parseUpf siReader smallUpf with | .ok _ => true | .error _ => false) = true := by decide +kernel
  cases e : parseUpf siReader smallUpf with
  | error _ => rw [e] at h; cases h
  | ok pp => exact ⟨pp, (parseUpf_iff _ _ _).1 e⟩

deriving instance DecidableEq for QijEntry
deriving instance DecidableEq for AugEntry

/-- Witness with augmentation: two functions, the flag and the two numbers are read. -/
example : ∃ a, Spec.IsAug siReader
    (.elem "PP_AUGMENTATION".toList [("q_with_l".toList, "T".toList), ("nqf".toList, "0".toList),
        ("nqlc".toList, "1".toList)] none
      [.elem "PP_Q".toList [] (some "2.00".toList) [],
        .elem "PP_QIJ.1.1".toList [("first_index".toList, "1".toList), ("second_index".toList, "2".toList)]
          (some "0.000 2.00".toList) [],
        .elem "PP_QIJ.1.2".toList [("second_index".toList, "3".toList)] (some "2.00".toList) []]) a ∧
    a.qWithL = true ∧ a.nqf = 0 ∧ a.nqlc = 1 ∧ a.q = some [2] ∧
    a.qij = some [⟨some "1".toList, some "2".toList, none, none, [0, 2]⟩,
      ⟨none, some "3".toList, none, none, [2]⟩] := by
  refine ⟨_, (readAug_iff _ _ ⟨true, 0, 1, some [2], some [⟨some "1".toList, some "2".toList, none, none, [0, 2]⟩,
      ⟨none, some "3".toList, none, none, [2]⟩]⟩).1 ?_, rfl, rfl, rfl, rfl, rfl⟩
  decide +kernel

/-- C50: two files with the same blocks in the order of the file give the same dictionary, whatever else they contain:
elements with other tags before, between or after the blocks do not matter. -/
theorem parseUpf_other_blocks (rd : NumReader) (tag : Str) (attrs : List (Str × Str)) (t : Option Str) (cs cs' : List Xml)
    (h : ∀ name ∈ ["PP_INFO", "PP_HEADER", "PP_MESH", "PP_NONLOCAL", "PP_LOCAL"],
      cs.filter (fun c => decide (c.tag = name.toList)) = cs'.filter (fun c => decide (c.tag = name.toList))) :
    parseUpf rd (.elem tag attrs t cs) = parseUpf rd (.elem tag attrs t cs') := by
  have hf : ∀ name ∈ ["PP_INFO", "PP_HEADER", "PP_MESH", "PP_NONLOCAL", "PP_LOCAL"],
      (Xml.elem tag attrs t cs).find name = (Xml.elem tag attrs t cs').find name := by
    intro name hn
    have key : ∀ l : List Xml, l.find? (fun c => c.tag == name.toList) =
        (l.filter fun c => decide (c.tag = name.toList)).head? := by
      intro l
      rw [List.head?_filter]
      congr 1
      funext c
      rw [Bool.eq_iff_iff, beq_iff_eq, decide_eq_true_eq]
    unfold Xml.find Xml.children
    rw [key, key, h name hn]
  have hc : ∀ name ∈ ["PP_INFO", "PP_HEADER", "PP_MESH", "PP_NONLOCAL", "PP_LOCAL"],
      (Xml.elem tag attrs t cs).child name = (Xml.elem tag attrs t cs').child name := by
    intro name hn
    unfold Xml.child
    rw [hf name hn]
  unfold parseUpf
  rw [hc _ (by simp), hc _ (by simp), hc _ (by simp), hf _ (by simp), hc "PP_LOCAL" (by simp)]

/-- Witness: the local block before or after the nonlocal one, with a block of atomic wave functions. -/
example (rd : NumReader) (a b c l n w : Str) (r v : List Xml) :
    parseUpf rd (.elem "UPF".toList [] none [.elem "PP_INFO".toList [] a [], .elem "PP_HEADER".toList [] b [],
        .elem "PP_MESH".toList [] c r, .elem "PP_LOCAL".toList [] l [], .elem "PP_NONLOCAL".toList [] n v]) =
    parseUpf rd (.elem "UPF".toList [] none [.elem "PP_HEADER".toList [] b [], .elem "PP_INFO".toList [] a [],
        .elem "PP_MESH".toList [] c r, .elem "PP_NONLOCAL".toList [] n v, .elem "PP_PSWFC".toList [] w [],
        .elem "PP_LOCAL".toList [] l []]) := by
  apply parseUpf_other_blocks
  intro name hn
  simp only [List.mem_cons, List.not_mem_nil, or_false] at hn
  rcases hn with rfl | rfl | rfl | rfl | rfl <;> simp [Xml.tag]

end Jrystal
