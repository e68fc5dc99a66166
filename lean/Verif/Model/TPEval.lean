import Verif.Model.TreePyramid

/-!
# `sampling_methods/tree_pyramid.py`: evaluation of the haar density on arrays
-/

set_option linter.unusedSectionVars false
set_option autoImplicit false

namespace Verif
namespace TPTree

variable {K : Type*} [Field K] [LinearOrder K] {d : ℕ}

/-- tree_pyramid.py:595-596: numpy compares the rows of `lower`, `upper` (`d` numbers) with a sample of `m` numbers. -/
def fits (m d : ℕ) : Prop := m = d ∨ m = 1 ∨ d = 1

instance (m d : ℕ) : Decidable (fits m d) := by unfold fits; infer_instance

/-- tree_pyramid.py:588-589, 595-596: `np.all(lower < sample, axis=1)` and `np.all(sample < upper, axis=1)` for the node with
centre `c` and radius `r`. Number by number for `m = d`, a single number with all `d` coordinates, all `m` numbers with a single
coordinate (other lengths do not come here). -/
def inBox {m : ℕ} (s : Fin m → K) (c : Pt K d) (r : K) : Bool :=
  if h : m = d then decide (∀ i, c i - r < s (Fin.cast h.symm i) ∧ s (Fin.cast h.symm i) < c i + r)
  else decide (∀ i j, c i - r < s j ∧ s j < c i + r)

/-- tree_pyramid.py:593-602 one pass of the loop of `prob`. The tree has at least one node, so lengths that do not fit are
noticed. -/
def likelihood {m : ℕ} (T : TPTree K d) (s : Fin m → K) : Except PyErr (XF K) :=
  if fits m d then
    let rows := (T.leavesIdx.zip (T.centers.zip T.radii)).zip T.weights
    match rows.filter fun ((b, c, r), _) => b && inBox s c r with
    | [] => .ok (XF.fin 0)
    | [((_, _, r), w)] => .ok (w / XF.fin ((2 * r) ^ d))
    | _ => .error .value
  else .error .value

/-- tree_pyramid.py:570-603 `prob` with kernel "haar". The result of `x.reshape` in line 572 is discarded, so the samples of a
flat array are its numbers. -/
def prob (T : TPTree K d) : NArr K → Except PyErr (List (XF K))
  | .vec xs => xs.mapM fun v => T.likelihood fun _ : Fin 1 => v
  | .mat _ rows => rows.mapM T.likelihood
  | .other => .error .value

/-- tree_pyramid.py:558-567 one pass of the loop of `log_prob`. -/
def llikelihood {m : ℕ} (T : TPTree K d) (s : Fin m → K) : Except PyErr (XF K) :=
  if fits m d then
    let rows := (T.leavesIdx.zip (T.centers.zip T.radii)).zip T.weights
    match rows.filter fun ((b, c, r), _) => b && inBox s c r with
    | [] => .ok (XF.fin 0)
    | [((_, _, r), w)] => .ok (w / XF.fin ((2 * r) ^ d))
    | _ => .error .value
  else .error .value

/-- tree_pyramid.py:535-568 `log_prob` with kernel "haar". -/
noncomputable def logProb (T : TPTree ℝ d) : NArr ℝ → Except PyErr (List (XF ℝ))
  | .vec xs => (xs.mapM fun v => T.llikelihood fun _ : Fin 1 => v).map (List.map XF.log)
  | .mat _ rows => (rows.mapM T.llikelihood).map (List.map XF.log)
  | .other => .error .value

end TPTree
end Verif
