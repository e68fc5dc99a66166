import Verif.Model.Uniform
import Verif.Model.Mixture
import Mathlib.Analysis.SpecialFunctions.Log.Basic

/-!
# `distributions/distributions.py`: the evaluation functions of the base class, and
`distributions/parametric/CMultivariateDelta.py`
-/

set_option linter.unusedSectionVars false
set_option autoImplicit false

namespace Verif

/-- The two evaluation functions of a distribution (distributions.py:94-95), `none` standing for `None`. A function takes
the rows of an array. -/
structure BaseDist (d : ℕ) where
  lik : Option (List (Fin d → ℝ) → List (XF ℝ))
  loglik : Option (List (Fin d → ℝ) → List (XF ℝ))

namespace BaseDist
variable {d : ℕ}

/-- distributions.py:258, 275: only arrays of rank two with `dims` columns pass the assertion. -/
def rows (d : ℕ) : NArr ℝ → Except PyErr (List (Fin d → ℝ))
  | .mat m rows => if h : m = d then .ok (h ▸ rows) else .error .assertion
  | _ => .error .assertion

/-- distributions.py:149-161 `set_likelihood_f`. -/
def setLik (B : BaseDist d) (f : Option (List (Fin d → ℝ) → List (XF ℝ))) : BaseDist d := { B with lik := f }

/-- distributions.py:163-176 `set_loglikelihood_f`. -/
def setLoglik (B : BaseDist d) (f : Option (List (Fin d → ℝ) → List (XF ℝ))) : BaseDist d := { B with loglik := f }

/-- distributions.py:251-266 `prob`; the plain `Exception` of line 266 is `.runtime`. -/
noncomputable def prob (B : BaseDist d) (x : NArr ℝ) : Except PyErr (List (XF ℝ)) :=
  match rows d x with
  | .error e => .error e
  | .ok rs =>
    match B.lik with
    | some f => .ok (f rs)
    | none =>
      match B.loglik with
      | some g => .ok ((g rs).map XF.exp)
      | none => .error .runtime

/-- distributions.py:268-283 `log_prob`. -/
noncomputable def logProb (B : BaseDist d) (x : NArr ℝ) : Except PyErr (List (XF ℝ)) :=
  match rows d x with
  | .error e => .error e
  | .ok rs =>
    match B.loglik with
    | some g => .ok (g rs)
    | none =>
      match B.lik with
      | some f => .ok ((f rs).map XF.log)
      | none => .error .runtime

end BaseDist

/-- CMultivariateDelta.py:5-21: the location. -/
structure Delta (K : Type*) (d : ℕ) where
  loc : Fin d → K

namespace Delta
variable {K : Type*} [Field K] [LinearOrder K] {d : ℕ}

/-- `np.isclose(a, b)` with the default tolerances: `|a - b| <= 1e-8 + 1e-5 * |b|`. -/
def isclose (a b : K) : Bool := decide (|a - b| ≤ 1 / 10 ^ 8 + 1 / 10 ^ 5 * |b|)

/-- CMultivariateDelta.py:30/39: `np.all(np.isclose(self.loc, samples), axis=1)`, one row. -/
def inlier (D : Delta K d) (x : Fin d → K) : Bool := (List.finRange d).all fun i => isclose (D.loc i) (x i)

/-- CMultivariateDelta.py:35-42 `prob`: zeros, overwritten with `inf` at the inliers. -/
def prob (D : Delta K d) (x : NArr K) : Except PyErr (List (XF K)) :=
  match checkShape d x with
  | .error e => .error e
  | .ok rs => .ok (List.zipWith (fun v r => if D.inlier r then XF.pinf else v) (List.replicate rs.length (XF.fin 0)) rs)

/-- CMultivariateDelta.py:26-33 `log_prob`. -/
def logProb (D : Delta K d) (x : NArr K) : Except PyErr (List (XF K)) :=
  match checkShape d x with
  | .error e => .error e
  | .ok rs => .ok (List.zipWith (fun v r => if D.inlier r then XF.pinf else v) (List.replicate rs.length XF.ninf) rs)

/-- CMultivariateDelta.py:23-24 `sample`. -/
def sample (D : Delta K d) (n : ℕ) : List (Fin d → K) := List.replicate n D.loc

/-- CMultivariateDelta.py:47-51 `integral`: after the assertion line 49 reads the undefined name `center`. (`np.all` is
evaluated after its argument, so the name is always looked up.) -/
def integral (_ : Delta K d) (a b : Fin d → K) : Except PyErr (XF K) :=
  if ∀ i, a i < b i then .error .name else .error .assertion

end Delta
end Verif
