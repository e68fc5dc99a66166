import Verif.Spec.TPCalls

/-!
Vocabulary of the refinement order of the tree pyramid: importance volume of a leaf and the splitting criterion, read off
the weights stored in the leaf.
-/

set_option autoImplicit false

namespace Verif

variable {K : Type*} [Field K] [LinearOrder K] {d : ℕ}

/-- Estimate of the weight of a leaf from its stored weights: their mean, or, with leaf resampling, the last one (the
weight of the resampled point). -/
def leafEstimate (resampling : Bool) (ws : List (XF K)) : XF K :=
  if resampling then ws.getLastD XF.nan else ws.sum / XF.fin (ws.length : K)

/-- `v` is the importance volume of the leaf `p`: the estimate of its weight times the volume of its box. -/
def ImportanceVolume (resampling : Bool) (T : TPTree K d) (p : ℕ) (v : XF K) : Prop :=
  ∃ (n : TPNode K d) (ws : List (XF K)), T.nodes[p]? = some n ∧ n.weightHist = some ws ∧
    v = leafEstimate resampling ws * XF.fin ((2 * n.radius) ^ d)

/-- The leaf `p` meets the splitting criterion: at least `nMin` weights, and an effective sample size that is not above
`t` times their number. -/
def Splittable (t : K) (nMin : ℕ) (T : TPTree K d) (p : ℕ) : Prop :=
  ∃ (n : TPNode K d) (ws : List (XF K)), T.nodes[p]? = some n ∧ n.weightHist = some ws ∧ nMin ≤ ws.length ∧
    XF.ltb (XF.fin (t * ws.length)) (ws.sum * ws.sum / (ws.map fun w => w * w).sum) = false

end Verif
