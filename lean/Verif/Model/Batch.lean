import Verif.Model.Mixture
import Verif.Model.Densities

/-!
# Mixtures on arrays: shapes in `distributions/mixture/CMixtureModel.py`

`Model/Mixture.lean` evaluates a mixture on a list of points. Here the argument is an array and the components are
array functions of their own, which may raise and may return arrays of another shape than `(N,)`.
-/

set_option linter.unusedSectionVars false
set_option autoImplicit false

namespace Verif
namespace Batch

/-- The method `log_prob` of a component: from an array of points to an array of values. -/
abbrev Comp := NArr ℝ → Except PyErr (NArr (XF ℝ))

/-- Number of columns of the matrix `likelihood` (CMixtureModel.py:44-51, 60-67): `1` for a vector, the number of rows
for a matrix, ValueError for other ranks. -/
def columns : NArr ℝ → Except PyErr ℕ
  | .vec _ => .ok 1
  | .mat _ rows => .ok rows.length
  | .other => .error .value

/-- numpy `row[...] = v` for a row with `n` entries and a vector `v`: same length, or a single value for all. -/
def assignVec (n : ℕ) (v : List (XF ℝ)) : Except PyErr (List (XF ℝ)) :=
  if v.length = n then .ok v
  else match v with
    | [a] => .ok (List.replicate n a)
    | _ => .error .value

/-- numpy `row[...] = a` for an array `a` (CMixtureModel.py:54): a matrix fits when it has a single row that fits. -/
def assignRow (n : ℕ) : NArr (XF ℝ) → Except PyErr (List (XF ℝ))
  | .vec v => assignVec n v
  | .mat _ rows => match rows with
    | [r] => assignVec n (List.ofFn r)
    | _ => .error .value
  | .other => .error .value

/-- `ndarray.flatten` for vectors and matrices. (No component returns another rank.) -/
def flatten : NArr (XF ℝ) → List (XF ℝ)
  | .vec v => v
  | .mat _ rows => rows.flatMap List.ofFn
  | .other => []

/-- CMixtureModel.py:43-57 `log_prob`, for at least one component. -/
noncomputable def mixLogProb (comps : List Comp) (weights : List (XF ℝ)) (x : NArr ℝ) : Except PyErr (List (XF ℝ)) := do
  let n ← columns x
  let rows ← comps.mapM fun c => c x >>= assignRow n
  return (List.range n).map fun j => Mixture.logsumexp (rows.map fun r => r.getD j .nan) weights

/-- CMixtureModel.py:59-77 `prob`, for at least one component. -/
noncomputable def mixProb (comps : List Comp) (weights : List (XF ℝ)) (x : NArr ℝ) : Except PyErr (List (XF ℝ)) := do
  let n ← columns x
  let rows ← (comps.zip weights).mapM fun p => do
    let v ← p.1 x
    assignVec n ((flatten v).map fun a => XF.exp a * p.2)
  return sumAxis0 n rows

/-- A component whose `log_prob` returns a vector. -/
def ofVec (c : NArr ℝ → Except PyErr (List (XF ℝ))) : Comp := fun x => (c x).map NArr.vec

/-- `log_prob` of the normal distribution as a component. -/
noncomputable def normalComp {d : ℕ} (s : Normal d) : Comp := ofVec fun x => (s.logProb x).map fun l => l.map XF.fin

/-- `log_prob` of the exponential distribution as a component. -/
noncomputable def exponentialComp {d : ℕ} (s : Exponential d) : Comp :=
  ofVec fun x => (s.logProb x).map fun l => l.map XF.fin

/-- `log_prob` of the uniform distribution (CMultivariateUniform.py:38-47) as a component. -/
noncomputable def uniformComp {d : ℕ} (U : Uniform ℝ d) : Comp :=
  ofVec fun x => (checkShape d x).map fun rows => rows.map U.logProb1

/-- `log_prob` of the Laplace density as a component: an `(N, 1)` array. -/
noncomputable def laplaceComp : Comp := fun x => (Laplace.logProb x).map fun a => match a with
  | .vec v => .vec (v.map XF.fin)
  | .mat m rows => .mat m (rows.map fun r i => XF.fin (r i))
  | .other => .other

end Batch
end Verif
