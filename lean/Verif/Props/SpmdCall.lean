import Verif.Model.SpmdCall
import Verif.Props.Spmd

/-
C103: the transforms `fftn3d` and `ifftn3d` as they are called and compiled: on any number of devices, inside
or outside `jax.jit` and `with mesh:`.
-/
namespace Jrystal

/-! ### When the call succeeds -/

private theorem call_eq (f : ShapeFun) (env : CpEnv) (spec : PSpec) (n : List ℕ) (x : List ℕ → ℂ)
    (hs : env.shardy = false) :
    cpCall (customShardingByMesh f) env spec n x
      = if env.eager then .ok (f n x)
        else match cpLower env with
          | .error e => .error e
          | .ok .inlined => .ok (f n x)
          | .ok (.customCall mesh) =>
            if mesh = [] then .error .attributeError
            else .ok (runSharded (partsOf (axesSize mesh)
              (partitionRule (spec ++ List.replicate (n.length - spec.length) none) n.length).1) n f x) := by
  unfold cpCall
  rw [if_neg (by simp [hs])]
  simp only [customShardingByMesh, cpDefPartition, cpInit]
  split_ifs with he
  · rfl
  · cases hl : cpLower env with
    | error e => rfl
    | ok r =>
      cases r with
      | inlined => rfl
      | customCall mesh =>
        unfold cpCustomCall cpDecode
        by_cases hm : mesh = [] <;> simp [hm]

private theorem ok_of_mesh (f : ShapeFun) (env : CpEnv) (spec : PSpec) (n : List ℕ) (x : List ℕ → ℂ)
    (hs : env.shardy = false) (hm : env.threadMesh ≠ [])
    (hc : ∀ d m, env.context = .sharding d (some m) → meshDevices m = d.getD env.allDevices) :
    ∃ y, cpCall (customShardingByMesh f) env spec n x = .ok y := by
  rw [call_eq f env spec n x hs]
  split_ifs with he
  · exact ⟨_, rfl⟩
  have hcall : ∀ r, cpLower env = r → (∀ e, r ≠ .error e) → r ≠ .ok (.customCall []) →
      ∃ y, (match r with
          | .error e => .error e
          | .ok .inlined => .ok (f n x)
          | .ok (.customCall mesh) =>
            if mesh = [] then .error .attributeError
            else .ok (runSharded (partsOf (axesSize mesh)
              (partitionRule (spec ++ List.replicate (n.length - spec.length) none) n.length).1) n f x) :
            Except PyErr (List ℕ → ℂ)) = .ok y := by
    intro r _ h1 h2
    match r, h1, h2 with
    | .error e, h1, _ => exact absurd rfl (h1 e)
    | .ok .inlined, _, _ => exact ⟨_, rfl⟩
    | .ok (.customCall mesh), _, h2 =>
      exact ⟨_, if_neg fun h => h2 (by rw [h])⟩
  refine hcall _ rfl ?_ ?_
  · intro e
    unfold cpLower
    split
    · split_ifs <;> simp
    · rename_i d am h
      dsimp only
      split
      · split_ifs <;> simp
      · rw [if_neg (not_not.2 (hc d _ h))]
        split_ifs <;> simp
    · simp
  · unfold cpLower
    split
    · split_ifs <;> simp [hm]
    · rename_i d am h
      dsimp only
      split
      · split_ifs <;> simp [hm]
      · rename_i m
        rw [if_neg (not_not.2 (hc d _ h))]
        split_ifs with h2
        · simp
        · intro h3
          have h4 : m = [] := by simpa using h3
          have := hc d _ h
          rw [h4] at this
          exact h2 (.inr (by rw [← this]; rfl))
    · simp

/-- C103: with the default partitioner, inside `with mesh:` for a mesh with at least one axis, both
transforms accept every array of rank at least three, however many devices there are and however the array
is divided. -/
theorem fftOn_accepts (env : CpEnv) (spec : PSpec) (n : List ℕ) (x : List ℕ → ℂ) (hn : 3 ≤ n.length)
    (hs : env.shardy = false) (hm : env.threadMesh ≠ [])
    (hc : ∀ d m, env.context = .sharding d (some m) → meshDevices m = d.getD env.allDevices) :
    (∃ y, fftn3dOn env spec n x = .ok y) ∧ ∃ y, ifftn3dOn env spec n x = .ok y := by
  unfold fftn3dOn ifftn3dOn
  rw [if_neg (by omega), if_neg (by omega)]
  exact ⟨ok_of_mesh _ env spec n x hs hm hc, ok_of_mesh _ env spec n x hs hm hc⟩

/-- The hypotheses are met by the drivers on eight devices. -/
example : (driverMesh 8 true) ≠ [] ∧ meshDevices (driverMesh 8 true) = 8 := ⟨by decide, by decide⟩

/-! ### The value -/

private theorem getD_pad (spec : PSpec) (m i : ℕ) :
    (spec ++ List.replicate m none)[i]?.getD none = spec[i]?.getD none := by
  by_cases h : i < spec.length
  · rw [List.getElem?_append_left h]
  · rw [List.getElem?_append_right (by omega), List.getElem?_replicate,
      List.getElem?_eq_none (by omega : spec.length ≤ i)]
    split_ifs <;> rfl

private theorem value_of_call (tr : Transform3) (env : CpEnv) (spec : PSpec) (lead : List ℕ) (a b c : ℕ)
    (h1 : spec[lead.length]?.getD none = none) (h2 : spec[lead.length + 1]?.getD none = none)
    (x y : List ℕ → ℂ)
    (h : cpCall (customShardingByMesh (onLast tr)) env spec (lead ++ [a, b, c]) x = .ok y)
    (pre : List ℕ) (hpre : pre.length = lead.length) (i j k : ℕ) (hi : i < a) (hj : j < b) (hk : k < c) :
    y (pre ++ [i, j, k]) = onLast tr (lead ++ [a, b, c]) x (pre ++ [i, j, k]) := by
  by_cases hs : env.shardy = true
  · unfold cpCall at h
    rw [if_pos ⟨hs, rfl⟩] at h
    exact absurd h (by simp)
  rw [call_eq _ env spec _ x (by simpa using hs)] at h
  split_ifs at h with he
  · rw [← Except.ok.inj h]
  · split at h
    · exact absurd h (by simp)
    · rw [← Except.ok.inj h]
    · split_ifs at h with hm
      rw [← Except.ok.inj h]
      exact partitionRule_correct_partial tr _ _ lead a b c (by rw [getD_pad]; exact h1)
        (by rw [getD_pad]; exact h2) x pre hpre i j k hi hj hk

/-- C103 (partial): whatever the devices, the mesh and the compilation context are, when the compiled
transform of an array returns and the axes `-3` and `-2` of the array are not divided, the result is the one
`fftn3d` and `ifftn3d` give for the whole array on one device.  Missing: arrays divided along those axes,
for which the claim is false (`fftOn_wrong`). -/
theorem fftOn_value_partial (env : CpEnv) (spec : PSpec) (lead : List ℕ) (a b c : ℕ)
    (h1 : spec[lead.length]?.getD none = none) (h2 : spec[lead.length + 1]?.getD none = none)
    (x y z : List ℕ → ℂ) (pre : List ℕ) (hpre : pre.length = lead.length) (i j k : ℕ)
    (hi : i < a) (hj : j < b) (hk : k < c) :
    (fftn3dOn env spec (lead ++ [a, b, c]) x = .ok y → fftn3d (lead ++ [a, b, c]) x = .ok z →
      y (pre ++ [i, j, k]) = z (pre ++ [i, j, k])) ∧
    (ifftn3dOn env spec (lead ++ [a, b, c]) x = .ok y → ifftn3d (lead ++ [a, b, c]) x = .ok z →
      y (pre ++ [i, j, k]) = z (pre ++ [i, j, k])) := by
  have hn : ¬ (lead ++ [a, b, c]).length < 3 := by simp
  unfold fftn3dOn ifftn3dOn fftn3d ifftn3d
  rw [if_neg hn, if_neg hn, if_neg hn, if_neg hn]
  constructor <;> intro hy hz <;> rw [← Except.ok.inj hz] <;>
    exact value_of_call _ env spec lead a b c h1 h2 x y hy pre hpre i j k hi hj hk

/-- C103: the wave functions of a ground-state calculation, `spin × kpt × band × x × y × z`, in the mesh of
the drivers and divided the way the drivers divide them: on any number of devices, with or without
`parallel_over_k_mesh`, at once or compiled in a context of the devices of that mesh, the transform succeeds
and is the transform on one device. -/
theorem driverFft_correct (numDevices : ℕ) (par eager : Bool) (all : ℕ) (am : Bool)
    (ns nk nb a b c : ℕ) (x : List ℕ → ℂ) :
    let mesh := driverMesh numDevices par
    let env : CpEnv :=
      { shardy := false, eager := eager, allDevices := all, threadMesh := mesh
        context := .sharding (some (meshDevices mesh)) (if am then some mesh else none) }
    ∃ y z, fftn3dOn env [some ["s"], some ["k"]] [ns, nk, nb, a, b, c] x = .ok y ∧
      fftn3d [ns, nk, nb, a, b, c] x = .ok z ∧
      ∀ s q bd i j k, i < a → j < b → k < c → y [s, q, bd, i, j, k] = z [s, q, bd, i, j, k] := by
  intro mesh env
  obtain ⟨⟨y, hy⟩, _⟩ := fftOn_accepts env [some ["s"], some ["k"]] [ns, nk, nb, a, b, c] x
    (by simp) rfl (by simp [env, mesh, driverMesh]) (by
      intro d m hdm
      cases am
      · simp [env] at hdm
      · simp only [env, if_true, AxisContext.sharding.injEq, Option.some.injEq] at hdm
        rw [← hdm.1, ← hdm.2]; rfl)
  refine ⟨y, onLast (fun _ => fftn) [ns, nk, nb, a, b, c] x, hy, by unfold fftn3d; rw [if_neg (by simp)],
    fun s q bd i j k hi hj hk => ?_⟩
  exact (fftOn_value_partial env [some ["s"], some ["k"]] [ns, nk, nb] a b c rfl rfl x y _ [s, q, bd] rfl
    i j k hi hj hk).1 hy (by unfold fftn3d; rw [if_neg (by simp)]; rfl)

/-- C103: on one device, or outside `jax.jit`, the call is the plain transform of the whole array, for every
mesh, sharding and shape. -/
theorem fftOn_single (env : CpEnv) (spec : PSpec) (n : List ℕ) (x : List ℕ → ℂ)
    (hs : env.shardy = false)
    (h1 : env.eager = true ∨ env.context = .replica ∨ env.context = .sharding (some 1) none ∨
      (env.context = .sharding none none ∧ env.allDevices = 1)) :
    fftn3dOn env spec n x = fftn3d n x ∧ ifftn3dOn env spec n x = ifftn3d n x := by
  have key : ∀ f, cpCall (customShardingByMesh f) env spec n x = .ok (f n x) := by
    intro f
    rw [call_eq f env spec n x hs]
    rcases h1 with h | h | h | ⟨h, h'⟩
    · rw [if_pos h]
    · unfold cpLower; rw [h]; split_ifs <;> rfl
    · unfold cpLower; rw [h]; split_ifs <;> rfl
    · unfold cpLower; rw [h, h']; split_ifs <;> rfl
  unfold fftn3dOn ifftn3dOn fftn3d ifftn3d
  rw [key, key]
  exact ⟨rfl, rfl⟩

/-! ### What fails -/

/-- C103, refuted: dividing the first transformed axis over two devices is accepted, and the compiled
transform of the array of ones of shape `2 × 1 × 1` differs from the one on one device. -/
theorem fftOn_wrong :
    ∃ (env : CpEnv) (spec : PSpec) (n : List ℕ) (x y z : List ℕ → ℂ) (idx : List ℕ),
      env.shardy = false ∧ env.threadMesh = [("k", 2)] ∧ (∀ t ∈ List.zip idx n, t.1 < t.2) ∧
      fftn3dOn env spec n x = .ok y ∧ fftn3d n x = .ok z ∧ y idx ≠ z idx := by
  refine ⟨⟨false, false, 2, [("k", 2)], .sharding (some 2) none⟩, [some ["k"]], [2, 1, 1], fun _ => 1,
    runSharded [2, 1, 1] [2, 1, 1] (onLast fun _ => fftn) (fun _ => 1),
    onLast (fun _ => fftn) [2, 1, 1] (fun _ => 1), [0, 0, 0], rfl, rfl, ?_, ?_, ?_, ?_⟩
  · intro t ht
    have : t ∈ [(0, 2), (0, 1), (0, 1)] := ht
    simp only [List.mem_cons, List.not_mem_nil, or_false] at this
    rcases this with rfl | rfl | rfl <;> decide
  · unfold fftn3dOn
    rw [if_neg (by simp), call_eq _ _ _ _ _ rfl]
    rfl
  · unfold fftn3d
    rw [if_neg (by simp)]
  · rw [halves_transform.1, halves_transform.2]
    norm_num

/-- C103, refuted: with the Shardy partitioner every transform raises `AttributeError`: the call reads the
attribute `sharding_rule`, which is never set. -/
theorem fftOn_shardy (env : CpEnv) (spec : PSpec) (n : List ℕ) (x : List ℕ → ℂ) (hn : 3 ≤ n.length)
    (hs : env.shardy = true) :
    fftn3dOn env spec n x = .error .attributeError ∧ ifftn3dOn env spec n x = .error .attributeError := by
  have hn' : ¬ n.length < 3 := by omega
  unfold fftn3dOn ifftn3dOn cpCall
  rw [if_neg hn', if_neg hn', if_pos ⟨hs, rfl⟩, if_pos ⟨hs, rfl⟩]
  exact ⟨rfl, rfl⟩

/-- C103, refuted: a transform compiled for two or more devices outside `with mesh:` raises
`AttributeError`, for every array and every sharding. -/
theorem fftOn_noMesh (env : CpEnv) (spec : PSpec) (n : List ℕ) (x : List ℕ → ℂ) (hn : 3 ≤ n.length)
    (he : env.eager = false) (hm : env.threadMesh = []) (d : ℕ) (hd : 2 ≤ d)
    (hc : env.context = .sharding (some d) none) :
    fftn3dOn env spec n x = .error .attributeError ∧ ifftn3dOn env spec n x = .error .attributeError := by
  obtain ⟨sh, ea, all, tm, ctx⟩ := env
  simp only at he hm hc
  subst he hm hc
  have key : ∀ f, cpCall (customShardingByMesh f)
      { shardy := sh, eager := false, allDevices := all, threadMesh := [], context := .sharding (some d) none }
      spec n x = .error .attributeError := by
    intro f
    cases sh
    · rw [call_eq _ _ _ _ _ rfl]
      unfold cpLower
      simp only [Option.getD_some]
      rw [if_neg (by omega : ¬ (d = 0 ∨ d = 1))]
      rfl
    · rfl
  have hn' : ¬ n.length < 3 := by omega
  unfold fftn3dOn ifftn3dOn
  rw [if_neg hn', if_neg hn', key, key]
  exact ⟨rfl, rfl⟩

/-- C103: a wrapped function for which `def_partition` was never called cannot be called at all. -/
theorem undefinedPartition_raises (f : ShapeFun) (env : CpEnv) (spec : PSpec) (n : List ℕ) (x : List ℕ → ℂ) :
    cpCall (cpInit f) env spec n x = .error .attributeError := by
  unfold cpCall
  split_ifs <;> rfl

/-- C103, refuted: `jax.vmap` of a wrapped shape-preserving function announces a result without the batch
axis, whatever the batch and the shape are, although it reports the batch axis as axis 0.  (`jax.vmap` of
`fftn3d` and `ifftn3d` does not use this rule, see `fftn_batching`.) -/
theorem wrappedBatch_shape_wrong (batch : ℕ) (n : List ℕ) :
    (cpBatchShapes batch n id).2.1 ≠ (cpBatchShapes batch n id).1 := by
  intro h
  have := congrArg List.length h
  simp [cpBatchShapes] at this

end Jrystal
