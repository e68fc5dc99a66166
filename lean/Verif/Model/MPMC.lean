import Verif.Model.Mixture
import Verif.Model.Normal
import Verif.Model.Loop
import Mathlib.Data.List.FinRange

/-!
# `sampling_methods/m_pmc.py`

Means and samples are arrays of extended numbers because the code can store NaN in them. Covariances that reach
`set_moments` and pass its assertion are real matrices.
-/

set_option linter.unusedSectionVars false
set_option autoImplicit false

namespace Verif

open Matrix

variable {d N : ℕ}

/-- State of a `CMixturePMC` object (base.py:21-26, m_pmc.py:26-33): means and covariances of the proposals (shared with the
mixture model), `wproposals`, the weights of the mixture model, samples, weights and counters. -/
structure PMC (d N : ℕ) where
  means : Fin N → Fin d → XF ℝ
  covs : Fin N → Matrix (Fin d) (Fin d) ℝ
  alpha : Fin N → XF ℝ
  modelWeights : List (XF ℝ)
  samples : List (Fin d → XF ℝ)
  weights : List (XF ℝ)
  numPi : ℕ
  numQEval : ℕ
  numQ : ℕ

namespace PMC

/-- The number stored in a finite entry. -/
def val : XF ℝ → ℝ
  | .fin x => x
  | _ => 0

/-- `log_prob` of the normal proposal with the given moments at one point (CMultivariateNormal.py:67-71; after
`set_moments` the object computes the same as a new object with these moments, property C10). Simplified: with a NaN or
infinite entry in the mean or the point the value is NaN. -/
noncomputable def normalLog (mean : Fin d → XF ℝ) (cov : Matrix (Fin d) (Fin d) ℝ) (x : Fin d → XF ℝ) : XF ℝ :=
  if (∀ i, (mean i).isFin) ∧ ∀ i, (x i).isFin then
    match Normal.mk' (fun i => val (mean i)) cov with
    | .ok s => .fin (s.logProb1 fun i => val (x i))
    | .error _ => .nan
  else .nan

/-- m_pmc.py:35-51 `reset`: uniform centers, covariance `diag(sigma)` (its determinant is checked by the constructor of the
normal distribution), weights `1/N`. -/
noncomputable def reset (N : ℕ) (sigma : ℝ) (lo hi : Fin d → ℝ) (u : Fin N → Fin d → ℝ) : Except PyErr (PMC d N) :=
  if N = 0 then .error .zeroDivision
  else if 0 < (Matrix.diagonal fun _ : Fin d => sigma).det then do
    let w ← setWeights N (List.replicate N (XF.fin (1 / (N : ℝ))))
    return ⟨fun n i => .fin (lo i + (hi i - lo i) * u n i), fun _ => Matrix.diagonal fun _ => sigma,
      fun _ => .fin (1 / (N : ℝ)), w, [], [], 0, 0, 0⟩
  else .error .assertion

/-- One sample of a batch with its normalised weight and its posterior probability under each component: row `i` of the
arrays `samples`, `weights` and `posteriors[d]` passed to `adapt`. -/
structure Row (d N : ℕ) where
  x : Fin d → XF ℝ
  w : XF ℝ
  rho : Fin N → XF ℝ

/-- m_pmc.py:57 new weight of component `n`. -/
noncomputable def newAlpha (rows : List (Row d N)) (n : Fin N) : XF ℝ := (rows.map fun r => r.w * r.rho n).sum

/-- m_pmc.py:61 new mean of component `n`. -/
noncomputable def newMean (rows : List (Row d N)) (n : Fin N) : Fin d → XF ℝ := fun j =>
  (rows.map fun r => r.w * r.rho n * r.x j).sum / newAlpha rows n

/-- m_pmc.py:64 `(samples - mu).T @ (samples - mu)`. -/
noncomputable def covVal (rows : List (Row d N)) (mu : Fin d → XF ℝ) : Fin d → Fin d → XF ℝ := fun a b =>
  (rows.map fun r => (r.x a - mu a) * (r.x b - mu b)).sum

/-- m_pmc.py:64-68 the covariance before the failsafe. -/
noncomputable def newCov (rows : List (Row d N)) (n : Fin N) : Fin d → Fin d → XF ℝ := fun a b =>
  (rows.map fun r => r.w * r.rho n * covVal rows (newMean rows n) a b).sum / newAlpha rows n

open Classical in
/-- m_pmc.py:70-72 the failsafe: any NaN or any entry larger than 10 replaces the matrix with `diag(10)`. -/
noncomputable def failsafe (cov : Fin d → Fin d → XF ℝ) : Fin d → Fin d → XF ℝ :=
  if (∃ a b, (cov a b).isNan = true) ∨ ∃ a b, XF.ltb (XF.fin 10) (cov a b) = true then
    fun a b => if a = b then XF.fin 10 else XF.fin 0
  else cov

/-- m_pmc.py:74 `set_moments` (CMultivariateNormal.py:52-62): AssertionError unless the determinant is positive (with an
infinite entry it is NaN). The mean is not checked. -/
noncomputable def setMoments (S : PMC d N) (n : Fin N) (mean : Fin d → XF ℝ) (cov : Fin d → Fin d → XF ℝ) :
    PMC d N × Option PyErr :=
  open Classical in
  if (∀ a b, (cov a b).isFin) ∧ 0 < (Matrix.of fun a b => val (cov a b)).det then
    ({ S with means := Function.update S.means n mean, covs := Function.update S.covs n (Matrix.of fun a b => val (cov a b)) }, none)
  else (S, some .assertion)

/-- m_pmc.py:55-74 the update of component `n`. -/
noncomputable def adaptOne (rows : List (Row d N)) (S : PMC d N) (n : Fin N) : PMC d N × Option PyErr :=
  setMoments { S with alpha := Function.update S.alpha n (newAlpha rows n) } n (newMean rows n) (failsafe (newCov rows n))

/-- m_pmc.py:55-74 the loop over the components, stopped by an exception. -/
noncomputable def adaptLoop (rows : List (Row d N)) : List (Fin N) → PMC d N → PMC d N × Option PyErr
  | [], S => (S, none)
  | n :: ns, S =>
    match adaptOne rows S n with
    | (S', none) => adaptLoop rows ns S'
    | (S', some e) => (S', some e)

/-- m_pmc.py:53-78 `adapt`. `set_weights` receives the array `self.wproposals` itself and overwrites its invalid entries
(CMixtureModel.py:33), hence the second field below. -/
noncomputable def adapt (rows : List (Row d N)) (S : PMC d N) : PMC d N × Option PyErr :=
  match adaptLoop rows (List.finRange N) S with
  | (S, some e) => (S, some e)
  | (S, none) =>
    let alpha := fun n => S.alpha n / (List.ofFn S.alpha).sum
    match setWeights N (List.ofFn alpha) with
    | .error e => ({ S with alpha := alpha }, some e)
    | .ok w => ({ S with alpha := fun n => if badWeight (alpha n) then 0 else alpha n, modelWeights := w }, none)

/-- Log density of the mixture model at a point (base.py:156-159, CMixtureModel.py:43-57). -/
noncomputable def logProb (S : PMC d N) (x : Fin d → XF ℝ) : XF ℝ :=
  Mixture.logsumexp (List.ofFn fun n => normalLog (S.means n) (S.covs n) x) S.modelWeights

/-- Density of the mixture model at a point (base.py:151-154, CMixtureModel.py:59-77). -/
noncomputable def prob (S : PMC d N) (x : Fin d → XF ℝ) : XF ℝ :=
  (List.zipWith (fun l w => XF.exp l * w) (List.ofFn fun n => normalLog (S.means n) (S.covs n) x) S.modelWeights).sum

/-- m_pmc.py:94-96 unnormalised weight of a sample. -/
noncomputable def rawWeight (target : (Fin d → XF ℝ) → XF ℝ) (S : PMC d N) (x : Fin d → XF ℝ) : XF ℝ :=
  XF.exp (target x - S.logProb x)

/-- m_pmc.py:103-105 posterior probability of component `n` at a sample. -/
noncomputable def posterior (S : PMC d N) (n : Fin N) (x : Fin d → XF ℝ) : XF ℝ :=
  XF.exp (XF.log (S.alpha n) + normalLog (S.means n) (S.covs n) x - S.logProb x)

/-- m_pmc.py:89-108 the arrays passed to `adapt`. -/
noncomputable def rowsOf (target : (Fin d → XF ℝ) → XF ℝ) (S : PMC d N) (new : List (Fin d → XF ℝ)) : List (Row d N) :=
  new.map fun x => ⟨x, rawWeight target S x / (new.map (rawWeight target S)).sum, fun n => posterior S n x⟩

/-- Random outcomes and clock of one iteration: Bernoulli outcomes of the multinomial draws, and the centred normal noise
component `n` would add to its mean for the `j`-th sample. -/
structure Iter (d : ℕ) where
  bern : ℕ → ℕ → ℝ → Bool
  noise : ℕ → ℕ → Fin d → ℝ
  late : Bool

/-- m_pmc.py:86 `self.sample(K)`: a draw of component `n` is its mean plus noise. -/
noncomputable def draw (S : PMC d N) (it : Iter d) (n j : ℕ) : Fin d → XF ℝ := fun i =>
  if h : n < N then S.means ⟨n, h⟩ i + .fin (it.noise n j i) else .nan

/-- m_pmc.py:84-116 one iteration, `k` is `self.K`; `k >= 1` (with `k = 0` the arrays have unexpected shapes). -/
noncomputable def body (k : ℕ) (target : (Fin d → XF ℝ) → XF ℝ) (it : Iter d) (S : PMC d N) : PMC d N × Option PyErr :=
  let S := { S with numQ := S.numQ + k }
  match mixtureSample N S.modelWeights it.bern (S.draw it) k with
  | .error e => (S, some e)
  | .ok new =>
    let rows := rowsOf target S new
    match adapt rows { S with numPi := S.numPi + k, numQEval := S.numQEval + k * (1 + N) } with
    | (S, some e) => (S, some e)
    | (S, none) => ({ S with samples := S.samples ++ new, weights := S.weights ++ rows.map Row.w }, none)

/-- m_pmc.py:80-118 `importance_sample`; the samples and weights of the final state are returned as they are. -/
noncomputable def importanceSample (k : ℕ) (target : (Fin d → XF ℝ) → XF ℝ) (n : ℕ) (expired : Bool)
    (script : List (Iter d)) (S : PMC d N) : Out (PMC d N) :=
  whileScript (fun S => decide (S.samples.length < n)) Iter.late (body k target) expired script S

end PMC
end Verif
