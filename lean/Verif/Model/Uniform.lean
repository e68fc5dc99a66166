import Verif.Model.XF
import Verif.Model.Py
import Mathlib.Algebra.BigOperators.Fin
import Mathlib.Data.Fintype.Basic

/-!
# `distributions/parametric/CMultivariateUniform.py` and `CDistribution._check_shape`

Points of dimension `d` are functions `Fin d → K`.
-/

set_option linter.unusedSectionVars false
set_option autoImplicit false

namespace Verif

variable {K : Type*} [Field K] [LinearOrder K]

/-- A numpy array argument: one dimensional, two dimensional with `m` columns, or of another rank. -/
inductive NArr (K : Type*) where
  | vec (xs : List K)
  | mat (m : ℕ) (rows : List (Fin m → K))
  | other

/-- distributions.py:128-147 `_check_shape`: a vector of length `dims` becomes a single row, a matrix
must have `dims` columns (an empty one fails at `x[0]`), everything else is a ValueError. -/
def checkShape (dims : ℕ) : NArr K → Except PyErr (List (Fin dims → K))
  | .vec xs => if h : xs.length = dims then .ok [fun i => xs[i.val]'(h ▸ i.isLt)] else .error .value
  | .mat m rows =>
    match rows with
    | [] => .error .index
    | r :: rs => if h : m = dims then .ok (h ▸ (r :: rs)) else .error .value
  | .other => .error .value

/-- State of a uniform distribution: location, broadcast scale, and the cached volume
(CMultivariateUniform.py:17-30). -/
structure Uniform (K : Type*) (d : ℕ) where
  loc : Fin d → K
  scale : Fin d → K
  volume : K

namespace Uniform
variable {d : ℕ}

/-- CMultivariateUniform.py:6-30 constructor; `radius` has one entry (used for all dimensions, lines 21-22) or `d`
entries (lines 23-24), anything else is a ValueError (lines 25-27).
A radius of the wrong length can already fail to broadcast at line 15, which is a ValueError too. -/
def mk' (center : Fin d → K) (radius : List K) : Except PyErr (Uniform K d) :=
  match radius with
  | [r] => .ok ⟨center, fun _ => r, (r * 2) ^ d⟩
  | rs => if h : rs.length = d then
      .ok ⟨center, fun i => rs[i.val]'(h ▸ i.isLt), ∏ i : Fin d, (rs[i.val]'(h ▸ i.isLt)) * 2⟩
    else .error .value

/-- CMultivariateUniform.py:44/56: all coordinates in `(min_val, max_val]`. -/
def inlier (U : Uniform K d) (x : Fin d → K) : Prop :=
  ∀ i, U.loc i - U.scale i < x i ∧ x i ≤ U.loc i + U.scale i

instance (U : Uniform K d) (x : Fin d → K) : Decidable (U.inlier x) := by
  unfold inlier; infer_instance

/-- CMultivariateUniform.py:29 `prob_val = 1 / volume`. -/
def probVal (U : Uniform K d) : XF K := XF.fin 1 / XF.fin U.volume

/-- CMultivariateUniform.py:49-59 `prob` for one row. -/
def prob1 (U : Uniform K d) (x : Fin d → K) : XF K := if U.inlier x then U.probVal else XF.fin 0

/-- CMultivariateUniform.py:49-59 `prob` on an array: shape check, an array filled with `prob_val`, and
outliers overwritten with 0. -/
def prob (U : Uniform K d) (x : NArr K) : Except PyErr (List (XF K)) := do
  let rows ← checkShape d x
  return List.zipWith (fun v r => if U.inlier r then v else XF.fin 0)
    (List.replicate rows.length U.probVal) rows

/-- CMultivariateUniform.py:32-36 `sample`, one row: `np.random.uniform(low, high)` is `low + (high-low)*u` with
`u` in `[0,1)` given by the generator. -/
def sample1 (U : Uniform K d) (u : Fin d → K) : Fin d → K := fun i =>
  (U.loc i - U.scale i) + ((U.loc i + U.scale i) - (U.loc i - U.scale i)) * u i

/-- CMultivariateUniform.py:64-68 `integral(a, b)`. The support is `[center - radius, center + radius]` (line 15). -/
def integral (U : Uniform K d) (a b : Fin d → K) : Except PyErr (XF K) :=
  if ∀ i, a i < b i then
    .ok ((XF.fin 1 / XF.fin U.volume) *
      XF.fin (∏ i, (min (b i) (U.loc i + U.scale i) - max (a i) (U.loc i - U.scale i))))
  else .error .assertion

end Uniform

/-- CMultivariateUniform.py:30,38-47 `log_prob` for one row. -/
noncomputable def Uniform.logProb1 {d : ℕ} (U : Uniform ℝ d) (x : Fin d → ℝ) : XF ℝ :=
  if U.inlier x then XF.log U.probVal else .ninf

end Verif
