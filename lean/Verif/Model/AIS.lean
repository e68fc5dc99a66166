import Verif.Model.Mixture
import Verif.Model.Loop
import Mathlib.Algebra.BigOperators.Fin

/-!
# Population samplers: `sampling_methods/dm_ais.py` and `sampling_methods/layered_ais.py`

Each proposal is a normal distribution whose covariance never changes (`diag(sigma)`), so it is represented by its mean
and the density of the family is a parameter `q mean x`. The proposal objects are shared between `self.proposals` and
`self.model.models`: moving a proposal moves the mixture component. The target is a function into the extended numbers.
Random outcomes (points drawn from the proposals, outcomes of the multinomial draws, Metropolis moves) are inputs.
-/

set_option linter.unusedSectionVars false
set_option autoImplicit false

namespace Verif

variable {K : Type*} [Field K] [LinearOrder K] {d : ℕ}

/-- State of a DM-AIS or layered AIS object (base.py:21-26, dm_ais.py:26-45, layered_ais.py:33-52). -/
structure AIS (K : Type*) (d : ℕ) where
  centers : List (Fin d → K)
  modelWeights : List (XF K)
  samples : List (Fin d → K)
  weights : List (XF K)
  numPi : ℕ
  numQEval : ℕ
  numQ : ℕ
  deriving DecidableEq

/-- `np.clip(x, lo, hi)`. -/
def clip (lo hi x : Fin d → K) : Fin d → K := fun i => min (max (x i) (lo i)) (hi i)

namespace AIS

/-- dm_ais.py:31-45, layered_ais.py:38-52 `reset`: `N` uniform centers (`u i` is the generator output in `[0,1)^d`),
mixture weights `1/N` (division by zero for `N = 0`) passed through `set_weights`, base.py:29-35 counters and arrays. -/
def reset (N : ℕ) (lo hi : Fin d → K) (u : ℕ → Fin d → K) : Except PyErr (AIS K d) :=
  if N = 0 then .error .zeroDivision else do
    let w ← setWeights N (List.replicate N (XF.fin (1 / (N : K))))
    return ⟨(List.range N).map fun k i => lo i + (hi i - lo i) * u k i, w, [], [], 0, 0, 0⟩

/-- `self.prob(s)`: base.py:149-152 and CMixtureModel.py:59-77 for a single point. -/
def prob (q : (Fin d → K) → (Fin d → K) → XF K) (S : AIS K d) (x : Fin d → K) : XF K :=
  (List.zipWith (fun c w => q c x * w) S.centers S.modelWeights).sum

/-- dm_ais.py:72-76 `target_d.prob(s) / self.prob(s)`. -/
def weigh (q : (Fin d → K) → (Fin d → K) → XF K) (target : (Fin d → K) → XF K) (S : AIS K d) (x : Fin d → K) : XF K :=
  target x / S.prob q x

/-- What `importance_sample` returns (dm_ais.py:86, layered_ais.py:104). -/
def returned (S : AIS K d) : List (Fin d → K) × List (XF K) :=
  (S.samples, S.weights.map fun w => w / S.weights.sum)

/-- dm_ais.py:63-69 the batch: `K` points from each of the `N` proposals, in order. -/
def batch (N k : ℕ) (pts : ℕ → ℕ → Fin d → K) : List (Fin d → K) :=
  (List.range N).flatMap fun i => (List.range k).map fun j => pts i j

end AIS

/-! ### DM-AIS -/

namespace DM

/-- Argument check of `np.random.multinomial(1, pvals)`: no NaN or infinity, all in `[0,1]`, all but the last sum up to
at most `1 + 1e-12`; otherwise ValueError. (`np.argmax` of the empty outcome is a ValueError too.) -/
def pvals (ws : List (XF K)) : Except PyErr (List K) :=
  match finites ws with
  | none => .error .value
  | some ps => if ps ≠ [] ∧ (∀ p ∈ ps, 0 ≤ p ∧ p ≤ 1) ∧ ps.dropLast.sum ≤ 1 + 1 / 10 ^ 12 then .ok ps else .error .value

/-- dm_ais.py:47-56 `resample`: every proposal moves to a sample selected with the normalised weights; `bern i` are the
Bernoulli outcomes of the i-th multinomial draw. All draws use the same probabilities, so they all raise or none does. -/
def resample (bern : ℕ → ℕ → K → Bool) (samples : List (Fin d → K)) (ws : List (XF K)) (S : AIS K d) :
    AIS K d × Option PyErr :=
  match pvals (ws.map fun w => w / ws.sum) with
  | .error e => (S, some e)
  | .ok ps =>
    ({ S with centers := (List.range S.centers.length).map fun i =>
        (samples[argmaxNat (multinomial1 (bern i) ps)]?).getD 0 }, none)

/-- Random outcomes and clock of one iteration. -/
structure Iter (K : Type*) (d : ℕ) where
  pts : ℕ → ℕ → Fin d → K
  bern : ℕ → ℕ → K → Bool
  late : Bool

/-- dm_ais.py:62-84 one iteration. With a single new sample `new_samples` is one dimensional, the loop of line 73 runs
over its coordinates and `self.prob` of a scalar is a ValueError (CMixtureModel.py:66-67). -/
def body (N k : ℕ) (q : (Fin d → K) → (Fin d → K) → XF K) (target : (Fin d → K) → XF K) (it : Iter K d) (S : AIS K d) :
    AIS K d × Option PyErr :=
  let new := AIS.batch N k it.pts
  let S := { S with numQ := S.numQ + N * k }
  if new.length = 1 then (S, some .value) else
  let ws := new.map (S.weigh q target)
  let S := { S with numPi := S.numPi + new.length }
  match resample it.bern new ws S with
  | (S, some e) => (S, some e)
  | (S, none) => ({ S with samples := S.samples ++ new, weights := S.weights ++ ws }, none)

/-- dm_ais.py:58-86 `importance_sample`; `expired` is `0 >= timeout`. -/
def importanceSample (N k : ℕ) (q : (Fin d → K) → (Fin d → K) → XF K) (target : (Fin d → K) → XF K) (n : ℕ)
    (expired : Bool) (script : List (Iter K d)) (S : AIS K d) : Out (AIS K d) :=
  whileScript (fun S => decide (S.samples.length < n)) Iter.late (body N k q target) expired script S

end DM

/-! ### Layered AIS -/

namespace LAIS

/-- Random outcomes and clock of one iteration: the points drawn, and per proposal and step the Metropolis move and the
uniform number it is compared with. -/
structure Iter (K : Type*) (d : ℕ) where
  pts : ℕ → ℕ → Fin d → K
  move : ℕ → ℕ → Fin d → K
  alpha : ℕ → ℕ → K
  late : Bool

/-- layered_ais.py:55-66 one Metropolis step from `x`. -/
def mhStep (lo hi : Fin d → K) (target : (Fin d → K) → XF K) (move : Fin d → K) (alpha : K) (x : Fin d → K) : Fin d → K :=
  let xHat := clip lo hi (x + move)
  if XF.ltb (XF.fin alpha) (target xHat / target x) then xHat else x

/-- layered_ais.py:54-68 `mcmc_mh`: `L` steps. -/
def mcmcMh (lo hi : Fin d → K) (target : (Fin d → K) → XF K) (L : ℕ) (move : ℕ → Fin d → K) (alpha : ℕ → K)
    (x : Fin d → K) : Fin d → K :=
  (List.range L).foldl (fun x l => mhStep lo hi target (move l) (alpha l) x) x

/-- layered_ais.py:70-74 `resample`, with the counters of lines 57, 59, 62. -/
def resample (lo hi : Fin d → K) (target : (Fin d → K) → XF K) (L : ℕ) (it : Iter K d) (S : AIS K d) : AIS K d :=
  { S with
    centers := S.centers.mapIdx fun i c => mcmcMh lo hi target L (it.move i) (it.alpha i) c
    numPi := S.numPi + S.centers.length * (2 * L)
    numQ := S.numQ + S.centers.length * L }

/-- layered_ais.py:80-102 one iteration; a single new sample is a ValueError as in DM-AIS. -/
def body (N k L : ℕ) (lo hi : Fin d → K) (q : (Fin d → K) → (Fin d → K) → XF K) (target : (Fin d → K) → XF K)
    (it : Iter K d) (S : AIS K d) : AIS K d × Option PyErr :=
  let new := AIS.batch N k it.pts
  let S := { S with numQ := S.numQ + N * k }
  if new.length = 1 then (S, some .value) else
  let ws := new.map (S.weigh q target)
  let S := { S with numPi := S.numPi + new.length }
  let S := resample lo hi target L it S
  ({ S with samples := S.samples ++ new, weights := S.weights ++ ws }, none)

/-- layered_ais.py:76-104 `importance_sample`. -/
def importanceSample (N k L : ℕ) (lo hi : Fin d → K) (q : (Fin d → K) → (Fin d → K) → XF K)
    (target : (Fin d → K) → XF K) (n : ℕ) (expired : Bool) (script : List (Iter K d)) (S : AIS K d) : Out (AIS K d) :=
  whileScript (fun S => decide (S.samples.length < n)) Iter.late (body N k L lo hi q target) expired script S

end LAIS
end Verif
