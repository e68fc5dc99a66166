import Verif.Model.XF
import Verif.Model.Py

/-!
# `distributions/mixture/CMixtureModel.py`
-/

set_option linter.unusedSectionVars false
set_option autoImplicit false

namespace Verif

section Weights
variable {K : Type*} [Field K] [LinearOrder K]

/-- CMixtureModel.py:29 `np.logical_or(np.isnan(weights), weights <= 0)`, entry by entry. -/
def badWeight (w : XF K) : Bool := w.isNan || XF.leb w 0

/-- CMixtureModel.py:28-33: entries that are NaN, negative or zero are overwritten with 0.
(The guard `np.any` is dropped: without a bad entry the assignment changes nothing; the warning is not modelled.) -/
def cleanWeights (ws : List (XF K)) : List (XF K) := maskSet badWeight 0 ws

/-- CMixtureModel.py:35-41: normalisation step; with a non positive sum the cleaned weights are kept as they are. -/
def normWeights (ws : List (XF K)) : List (XF K) :=
  if XF.leb ws.sum 0 then ws else ws.map (· / ws.sum)

/-- CMixtureModel.py:25-41 `set_weights`; `nModels` is `len(self.models)`. Returns the new `self.weights`. -/
def setWeights (nModels : ℕ) (ws : List (XF K)) : Except PyErr (List (XF K)) :=
  if nModels = ws.length then .ok (normWeights (cleanWeights ws)) else .error .assertion

end Weights

/-- A mixture: its components, given by their log densities, and the stored weights
(CMixtureModel.py:18-23). -/
structure Mixture (X : Type*) where
  models : List (X → XF ℝ)
  weights : List (XF ℝ)

namespace Mixture
variable {X : Type*}

/-- CMixtureModel.py:8-23: the constructor checks the lengths and calls `set_weights` on a copy of the weights.
Simplified: the parameter dictionary checks of `CDistribution.__init__` are not part of this definition. -/
noncomputable def mk' (models : List (X → XF ℝ)) (ws : List (XF ℝ)) : Except PyErr (Mixture X) :=
  (setWeights models.length ws).map fun w => ⟨models, w⟩

/-- CMixtureModel.py:59-77 `prob` on a batch (two dimensional data): the matrix
`likelihood[i] = exp(models[i].log_prob(data)) * weights[i]` summed over axis 0.
Lines 74-75 (clipping at the most negative float) are the identity on everything but `-inf`, which is not
reachable from exponentials times cleaned weights, and are left out. -/
noncomputable def prob (m : Mixture X) (data : List X) : List (XF ℝ) :=
  sumAxis0 data.length
    (List.zipWith (fun f w => data.map fun x => XF.exp (f x) * w) m.models m.weights)

/-- scipy `logsumexp(a, b=b)` for one column (scipy/special/_logsumexp.py): entries with `b == 0` are replaced with
`-inf`, the maximum (or 0 when it is not finite) is subtracted before exponentiating and added back at the end. -/
noncomputable def logsumexp (a b : List (XF ℝ)) : XF ℝ :=
  let a' := List.zipWith (fun x w => if w = 0 then XF.ninf else x) a b
  let amax := a'.foldl (fun m x => if XF.ltb m x then x else m) XF.ninf
  let shift := if amax.isFin then amax else 0
  XF.log ((List.zipWith (fun x w => w * XF.exp (x - shift)) a' b).sum) + shift

/-- CMixtureModel.py:43-57 `log_prob` on a batch: `logsumexp` over axis 0 of the matrix
`llikelihood[i] = models[i].log_prob(data)` with `b = weights`. Columns are read off the rows by position. -/
noncomputable def logProb (m : Mixture X) (data : List X) : List (XF ℝ) :=
  let rows := m.models.map fun f => data.map f
  (List.range data.length).map fun j => logsumexp (rows.map fun r => r.getD j .nan) m.weights

end Mixture

section Sampling
variable {K : Type*} [Field K] [LinearOrder K]

/-- numpy `random_multinomial(1, pvals)` (numpy/random/src/distributions/distributions.c): component `j` is
selected when a Bernoulli draw of probability `pvals[j]/left` succeeds, `left` being one minus the probabilities already
passed; the last component takes whatever is left. `bern j p` is the outcome of the j-th Bernoulli draw. -/
def multinomialGo (bern : ℕ → K → Bool) : ℕ → K → List K → List ℕ
  | _, _, [] => []
  | _, _, [_] => [1]
  | j, left, p :: q :: ps =>
    if bern j (p / left) then 1 :: List.replicate (q :: ps).length 0
    else 0 :: multinomialGo bern (j + 1) (left - p) (q :: ps)

/-- `np.random.multinomial(1, pvals)`. -/
def multinomial1 (bern : ℕ → K → Bool) (pvals : List K) : List ℕ := multinomialGo bern 0 1 pvals

/-- `np.argmax`: position of the first maximal entry (0 stands for the ValueError on an empty array, which callers
exclude). -/
def argmaxNat (l : List ℕ) : ℕ := l.findIdx (· = l.foldl max 0)

/-- The finite values of an array, or `none` when it holds NaN or an infinity. -/
def finites : List (XF K) → Option (List K)
  | [] => some []
  | .fin x :: l => (finites l).map (x :: ·)
  | _ :: _ => none

/-- CMixtureModel.py:79-89 `sample(n)`: for each of the n samples select a component with
`np.argmax(np.random.multinomial(1, self.weights))` and draw one point from it. `bern k` are the Bernoulli
outcomes of the k-th multinomial draw, `draw i k` is the point component `i` would produce for the k-th sample.
NaN or infinite weights make `np.random.multinomial` raise ValueError; an index without component is an IndexError. -/
def mixtureSample {Y : Type*} (nModels : ℕ) (weights : List (XF K)) (bern : ℕ → ℕ → K → Bool)
    (draw : ℕ → ℕ → Y) (n : ℕ) : Except PyErr (List Y) :=
  match finites weights with
  | none => if n = 0 then .ok [] else .error .value
  | some ws => (List.range n).mapM fun k =>
      let idx := argmaxNat (multinomial1 (bern k) ws)
      if idx < nModels then .ok (draw idx k) else .error .index

end Sampling
end Verif
