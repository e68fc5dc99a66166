import Verif.Model.TreePyramid
import Verif.Model.Normal

/-!
# `sampling_methods/tree_pyramid.py`: the parts specific to the kernel "normal"

The tree itself (splitting, indices, arrays) does not depend on the kernel.
-/

set_option linter.unusedSectionVars false
set_option autoImplicit false

namespace Verif

variable {d : ℕ}

namespace TPNormal

/-- tree_pyramid.py:54-58: sampler of a node, `CMultivariateNormal` with `sigma = diag(radius / bw_div)` and the default
`bw_div = 4` (no caller passes another value). -/
noncomputable def nodeSampler (c : Pt ℝ d) (r : ℝ) : Except PyErr (Normal d) :=
  Normal.mk' c (Matrix.diagonal fun _ => r / 4)

/-- tree_pyramid.py:721-723: component of the mixture model of `_update_model`, `sigma = diag(radius)`. -/
noncomputable def modelComponent (c : Pt ℝ d) (r : ℝ) : Except PyErr (Normal d) :=
  Normal.mk' c (Matrix.diagonal fun _ => r)

/-- tree_pyramid.py:137-139: prototype distribution of the resampling step, `sigma = 0.5 I`. -/
noncomputable def prototype (d : ℕ) : Except PyErr (Normal d) := Normal.mk' 0 (Matrix.diagonal fun _ => 1 / 2)

/-- tree_pyramid.py:505: `re_samples * 2 * radii + centers`, one row. -/
def reSample (z c : Pt ℝ d) (r : ℝ) : Pt ℝ d := fun j => z j * 2 * r + c j

/-- tree_pyramid.py:500-517 with kernel "normal": points and weights written to the cached arrays at the leaf
positions. `z` are the draws of the prototype, indexed by node position. -/
noncomputable def resampleArrays (proto : Normal d) (T : TPTree ℝ d) (target : Pt ℝ d → XF ℝ) (z : ℕ → Pt ℝ d) : TPTree ℝ d :=
  let pts := (T.centers.zip T.radii).zipIdx.map fun ((c, r), i) => (reSample (z i) c r, proto.prob1 (z i))
  { T with
    samples := ((T.samples.zip pts).zip T.leavesIdx).map fun ((s, x), b) => if b then x.1 else s
    weights := ((T.weights.zip pts).zip T.leavesIdx).map fun ((w, x), b) =>
      if b then target x.1 / XF.fin x.2 else w }

/-- tree_pyramid.py:500-533 `resample` with kernel "normal". -/
noncomputable def resample (T : TPTree ℝ d) (target : Pt ℝ d → XF ℝ) (z : ℕ → Pt ℝ d) : Except PyErr (TPTree ℝ d) := do
  let proto ← prototype d
  let T1 := TPTree.selfNormalize (resampleArrays proto T target z)
  T1.leaves.foldlM TPTree.refreshLeaf T1

end TPNormal
end Verif
