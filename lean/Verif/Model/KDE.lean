import Verif.Model.Normal
import Verif.Model.Mixture
import Verif.Model.Rejection
import Verif.Model.MultiNested

/-!
# The densities samplers report: `prob` and `log_prob` of `CMixtureSamplingMethod` (base.py:134-179)

The states of the Metropolis-Hastings, rejection, nested and multi-nested samplers keep the centres chosen by
`_update_model`; here the mixture is built from them.
-/

set_option linter.unusedSectionVars false
set_option autoImplicit false

namespace Verif
namespace KDE

variable {d : ℕ}

/-- base.py:165-179: one normal component with covariance `diag(ones * bw)` per centre, all with weight
`1/n_samples_kde`; there are `n_samples_kde` centres. (`support` and `dims` of the components are not modelled; points are
rows with at least one coordinate, so `x.shape` of line 168 is not empty.) -/
noncomputable def mixture (bw : ℝ) (centres : List (Fin d → ℝ)) : Except PyErr (Mixture (Fin d → ℝ)) :=
  match centres.mapM fun x => Normal.mk' x (Matrix.diagonal fun _ => 1 * bw) with
  | .error e => .error e
  | .ok comps => Mixture.mk' (comps.map fun c => fun x => .fin (c.logProb1 x))
      (List.replicate centres.length (.fin (1 / (centres.length : ℝ))))

/-- base.py:152-153, 157-158: the stored model, or a new one built from the samples when there is none. `centres` is the
centre list of the stored model. Simplified: the mixture object is built from the centres when it is used and not when the
centres are chosen, so a `bw` that a normal distribution rejects shows up here and not in `_update_model`. -/
noncomputable def model (bw : ℝ) (nKde : ℕ) (idx : ℕ → ℕ) (samples : List (Fin d → ℝ))
    (centres : Option (List (Fin d → ℝ))) : Except PyErr (Mixture (Fin d → ℝ)) :=
  match centres with
  | some m => mixture bw m
  | none =>
    match MHast.updateModel nKde idx samples with
    | .error e => .error e
    | .ok m => mixture bw m

/-- base.py:151-154 `prob` on a batch. -/
noncomputable def prob (bw : ℝ) (nKde : ℕ) (idx : ℕ → ℕ) (samples : List (Fin d → ℝ))
    (centres : Option (List (Fin d → ℝ))) (data : List (Fin d → ℝ)) : Except PyErr (List (XF ℝ)) :=
  (model bw nKde idx samples centres).map fun m => m.prob data

/-- base.py:156-159 `log_prob` on a batch. -/
noncomputable def logProb (bw : ℝ) (nKde : ℕ) (idx : ℕ → ℕ) (samples : List (Fin d → ℝ))
    (centres : Option (List (Fin d → ℝ))) (data : List (Fin d → ℝ)) : Except PyErr (List (XF ℝ)) :=
  (model bw nKde idx samples centres).map fun m => m.logProb data

end KDE

end Verif
