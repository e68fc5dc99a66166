import Verif.Model.Normal
import Verif.Model.Mixture
import Verif.Model.Grid

/-!
# `distributions/mixture/CGaussianMixtureModel.py` and the generators of `utils/misc.py`
-/

set_option linter.unusedSectionVars false
set_option autoImplicit false

namespace Verif

variable {d : ℕ}

/-- Attributes of a Gaussian mixture (CGaussianMixtureModel.py:24-38): the component distributions, the parameters, the
weights as given, the support and the inner `CMixtureModel`. -/
structure GMM (d : ℕ) where
  comps : List (Normal d)
  means : List (Fin d → ℝ)
  sigmas : List (Fin d → ℝ)
  weights : List (XF ℝ)
  support : (Fin d → ℝ) × (Fin d → ℝ)
  gmm : Mixture (Fin d → ℝ)

namespace GMM

/-- CGaussianMixtureModel.py:8-38 constructor; without weights all are equal. `len(params["means"][0])` is an IndexError
without means. Simplified: the means and the covariance diagonals already have the same dimension. -/
noncomputable def mk' (means sigmas : List (Fin d → ℝ)) (weights : Option (List (XF ℝ)))
    (support : (Fin d → ℝ) × (Fin d → ℝ)) : Except PyErr (GMM d) :=
  if means = [] then .error .index
  else
    match (List.zip means sigmas).mapM fun p => Normal.mk' p.1 (Matrix.diagonal p.2) with
    | .error e => .error e
    | .ok comps =>
      let w := weights.getD (List.replicate means.length (.fin (1 / means.length)))
      match Mixture.mk' (comps.map fun c => fun x => .fin (c.logProb1 x)) w with
      | .error e => .error e
      | .ok m => .ok ⟨comps, means, sigmas, w, support, m⟩

/-- CGaussianMixtureModel.py:43-44 `prob` on a batch. -/
noncomputable def prob (g : GMM d) (data : List (Fin d → ℝ)) : List (XF ℝ) := g.gmm.prob data

/-- CGaussianMixtureModel.py:40-41 `log_prob` on a batch. -/
noncomputable def logProb (g : GMM d) (data : List (Fin d → ℝ)) : List (XF ℝ) := g.gmm.logProb data

end GMM

/-- `np.random.uniform(lo, hi)`: `u` is the draw from `[0, 1)`. -/
def npUniform (lo hi u : ℝ) : ℝ := lo + (hi - lo) * u

/-- `np.min(rows, axis=0)`; without rows a ValueError. -/
noncomputable def minAxis0 : List (Fin d → ℝ) → Except PyErr (Fin d → ℝ)
  | [] => .error .value
  | r :: rs => .ok (rs.foldl (fun m x => fun k => min (m k) (x k)) r)

/-- `np.max(rows, axis=0)`; without rows a ValueError. -/
noncomputable def maxAxis0 : List (Fin d → ℝ) → Except PyErr (Fin d → ℝ)
  | [] => .error .value
  | r :: rs => .ok (rs.foldl (fun m x => fun k => max (m k) (x k)) r)

/-- misc.py:40-60 `generateRandomGMM`. The draws `uS i`, `uM i` and `uW i` of component `i` come from `[0, 1)`; all
vectors have the dimension of the space (the default `sigma_min` and `sigma_max` only fit three dimensions). -/
noncomputable def randomGMM (spaceMin spaceMax : Fin d → ℝ) (n : ℕ) (sigmaMin sigmaMax : Fin d → ℝ)
    (uS uM : ℕ → Fin d → ℝ) (uW : ℕ → ℝ) : Except PyErr (GMM d) :=
  let sigmas := (List.range n).map fun i => fun k => npUniform (sigmaMin k) (sigmaMax k) (uS i k)
  let means := (List.range n).map fun i => fun k =>
    let sigma := npUniform (sigmaMin k) (sigmaMax k) (uS i k)
    npUniform (spaceMin k + 5 * sigma) (spaceMax k - 5 * sigma) (uM i k)
  let draws := (List.range n).map uW
  let weights : List (XF ℝ) := draws.map fun w => .fin w / .fin draws.sum
  match minAxis0 (List.zipWith (fun m c => fun k => m k - 5 * c k) means sigmas) with
  | .error e => .error e
  | .ok lo =>
    match maxAxis0 (List.zipWith (fun m c => fun k => m k + 5 * c k) means sigmas) with
    | .error e => .error e
    | .ok hi => GMM.mk' means sigmas (some weights) (lo, hi)

/-- misc.py:63-70 `generateEggBoxGMM` with a scalar `sigma`. -/
noncomputable def eggBoxGMM (spaceMin spaceMax delta : Fin d → ℝ) (sigma : ℝ) : Except PyErr (GMM d) :=
  match makeGrid spaceMin spaceMax delta with
  | .error e => .error e
  | .ok (means, _, _) =>
    GMM.mk' means (means.map fun _ => fun _ => 1 * sigma) (some (List.replicate means.length (.fin (1 / means.length))))
      (fun k => spaceMin k - 5 * sigma, fun k => spaceMax k + 5 * sigma)

end Verif
