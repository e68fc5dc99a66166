import Verif.Model.Densities
import Verif.Model.GMM
import Verif.Model.Base

/-!
# `sample` of the distributions

The arrays returned, with their shapes, and the points in them as functions of the random numbers drawn.
-/

set_option linter.unusedSectionVars false
set_option autoImplicit false

namespace Verif

variable {d : ℕ}

namespace NArr
variable {K : Type*}

/-- `res.size`: the number of entries (arrays of rank other than 1 and 2 do not occur where this is used). -/
def size : NArr K → ℕ
  | .vec xs => xs.length
  | .mat m rows => rows.length * m
  | .other => 1

/-- `np.concatenate((a, b))` along axis 0: the ranks and the other lengths have to agree, otherwise a ValueError. -/
def concat : NArr K → NArr K → Except PyErr (NArr K)
  | .vec xs, .vec ys => .ok (.vec (xs ++ ys))
  | .mat m rs, .mat m' rs' => if h : m = m' then .ok (.mat m' (h ▸ rs ++ rs')) else .error .value
  | _, _ => .error .value

/-- The rank and lengths of an array (`shape`). -/
def shape : NArr K → List ℕ
  | .vec xs => [xs.length]
  | .mat m rows => [rows.length, m]
  | .other => []

end NArr

/-- distributions.py:178-191 `sample` of the base class, used by the classes that define none (Maxwell, Laplace, symmetric
Pareto, banana): the fallback announced in its documentation is not implemented. -/
def baseSample {K : Type*} (_n : ℕ) : Except PyErr (NArr K) := .error .notImplemented

/-- CMultivariateUniform.py:32-36 `sample`: `u k` are the numbers in `[0, 1)` of row `k`. -/
def Uniform.sample {K : Type*} [Field K] [LinearOrder K] (U : Uniform K d) (u : ℕ → Fin d → K) (n : ℕ) :
    Except PyErr (NArr K) :=
  .ok (.mat d ((List.range n).map fun k => U.sample1 (u k)))

/-- CMultivariateDelta.py:23-24 `sample` as an array. -/
def Delta.sampleArr {K : Type*} [Field K] [LinearOrder K] (D : Delta K d) (n : ℕ) : Except PyErr (NArr K) :=
  .ok (.mat d (D.sample n))

namespace Normal

/-- CMultivariateNormal.py:64-65, one row of `np.random.multivariate_normal(mean, cov)` (numpy/random/mtrand.pyx): with the
singular value decomposition `u diag(s) v` of the covariance the row is `mean + z (sqrt(s)[:, None] * v)`, `z` being
`d` standard normal numbers. `s` and `v` are given by the decomposition routine. -/
noncomputable def sample1 (N : Normal d) (s : Fin d → ℝ) (v : Matrix (Fin d) (Fin d) ℝ) (z : Fin d → ℝ) : Fin d → ℝ :=
  Matrix.vecMul z (Matrix.diagonal (fun i => Real.sqrt (s i)) * v) + N.loc

/-- CMultivariateNormal.py:64-65 `sample`: `z k` are the standard normal numbers of row `k`. -/
noncomputable def sample (N : Normal d) (s : Fin d → ℝ) (v : Matrix (Fin d) (Fin d) ℝ) (z : ℕ → Fin d → ℝ) (n : ℕ) :
    Except PyErr (NArr ℝ) :=
  .ok (.mat d ((List.range n).map fun k => N.sample1 s v (z k)))

end Normal

namespace Exponential

/-- One number of `np.random.exponential(scale)` (numpy legacy generator: `scale * -log(1.0 - u)`), `u` in `[0, 1)`. -/
noncomputable def sample1 (scale u : ℝ) : ℝ := scale * -Real.log (1 - u)

/-- CMultivariateExponential.py:28-29 `np.random.exponential(self.loc, n_samples)`: the result has the shape `(n_samples,)`,
to which the shape `(dims,)` of `loc` has to broadcast: one mean is used for all entries, `n_samples` means are used
entry by entry, any other number of means is a ValueError. -/
noncomputable def sample (s : Exponential d) (u : ℕ → ℝ) (n : ℕ) : Except PyErr (NArr ℝ) :=
  if h : d = 1 then .ok (.vec ((List.range n).map fun k => sample1 (s.loc ⟨0, by omega⟩) (u k)))
  else if h : d = n then .ok (.vec ((List.finRange d).map fun k => sample1 (s.loc k) (u k)))
  else .error .value

end Exponential

/-- CMixtureModel.py:82-88 the body of the loop of `sample`: the index of the component is drawn, the component is asked for
one sample, and the array returned is appended to `res` unless `res` has no entries. -/
def mixSampleStep {K : Type*} [Field K] [LinearOrder K] (comps : List (ℕ → Except PyErr (NArr K))) (ws : List K)
    (bern : ℕ → ℕ → K → Bool) (res : NArr K) (k : ℕ) : Except PyErr (NArr K) :=
  match comps[argmaxNat (multinomial1 (bern k) ws)]? with
  | none => .error .index
  | some q =>
    match q k with
    | .error e => .error e
    | .ok x => if res.size ≠ 0 then res.concat x else .ok x

/-- CMixtureModel.py:79-89 `sample(n_samples)` as an array. `comps[i] k` is what `models[i].sample(1)` returns when it is
called in the k-th iteration; `bern k` are the Bernoulli outcomes of the k-th multinomial draw. As in `mixtureSample`
weights that are not finite make the multinomial draw raise a ValueError. -/
def mixSampleArr {K : Type*} [Field K] [LinearOrder K] (comps : List (ℕ → Except PyErr (NArr K))) (weights : List (XF K))
    (bern : ℕ → ℕ → K → Bool) (n : ℕ) : Except PyErr (NArr K) :=
  match finites weights with
  | none => if n = 0 then .ok (.vec []) else .error .value
  | some ws => (List.range n).foldlM (mixSampleStep comps ws bern) (.vec [])

/-- CGaussianMixtureModel.py:46-47 `sample`, which is `sample` of the inner mixture (CMixtureModel.py:79-89) with normal
components (CMultivariateNormal.py:64-65). `svd` is the decomposition routine, `z k` are the standard normal numbers
drawn in the k-th iteration. An index without component is an IndexError raised by `mixtureSample`; the point given
here for it is not used. -/
noncomputable def GMM.sample (svd : Matrix (Fin d) (Fin d) ℝ → (Fin d → ℝ) × Matrix (Fin d) (Fin d) ℝ) (g : GMM d)
    (bern : ℕ → ℕ → ℝ → Bool) (z : ℕ → Fin d → ℝ) (n : ℕ) : Except PyErr (List (Fin d → ℝ)) :=
  mixtureSample g.comps.length g.gmm.weights bern
    (fun i k => match g.comps[i]? with
      | some N => N.sample1 (svd N.scale).1 (svd N.scale).2 (z k)
      | none => 0) n

end Verif
