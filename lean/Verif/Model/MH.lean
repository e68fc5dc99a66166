import Verif.Model.AIS
import Mathlib.Analysis.SpecialFunctions.Log.Basic

/-!
# Metropolis-Hastings: `sampling_methods/metropolis_hastings.py`

Points are vectors of the space (`self.current_sample` is a 1 x d array; the concatenations of lines 74, 131, 141 append
rows, for `d >= 1`). The target and the proposal enter through their `log_prob`. One record `Try` per execution of the
body of the inner loop gives the offset drawn from the proposal, the number drawn by `np.random.rand` and whether the
clock reading of that iteration was past the timeout.
-/

set_option linter.unusedSectionVars false
set_option autoImplicit false

namespace Verif
namespace MHast

variable {d : ℕ}

/-- Labels of the trajectory, metropolis_hastings.py:14-18. -/
inductive Label where
  | reject | accept | burnIn | decorrelation | sample
  deriving DecidableEq

/-- Parameters of the sampler and `log_prob` of target and proposal. -/
structure Cfg (d : ℕ) where
  lo : Fin d → ℝ
  hi : Fin d → ℝ
  target : (Fin d → ℝ) → XF ℝ
  prop : (Fin d → ℝ) → XF ℝ
  nSteps : ℕ
  nBurnin : ℕ
  nKde : ℕ

/-- Object state: metropolis_hastings.py:50-55, base.py:21-26, 138. `kde` holds the centres of the model built by
`_update_model`. -/
structure MH (d : ℕ) where
  cur : Fin d → ℝ
  isInit : Bool
  trajS : List (Fin d → ℝ)
  trajT : List Label
  samples : List (Fin d → ℝ)
  weights : List (XF ℝ)
  kde : Option (List (Fin d → ℝ))
  numPi : ℕ
  numQEval : ℕ
  numQ : ℕ

/-- metropolis_hastings.py:40-55: the constructor; `x0` is the draw of line 52. -/
def init (x0 : Fin d → ℝ) : MH d := ⟨x0, false, [], [], [], [], none, 0, 0, 0⟩

/-- metropolis_hastings.py:77-81 `reset`, base.py:141-143, 29-35. The current sample is kept. -/
def reset (S : MH d) : MH d := ⟨S.cur, false, [], [], [], [], none, 0, 0, 0⟩

/-- One execution of lines 89-116. -/
structure Try (d : ℕ) where
  z : Fin d → ℝ
  u : ℝ
  late : Bool

/-- The environment of one call of `mcmc_step`: `closed` is `timeout <= 0`. -/
structure StepEnv (d : ℕ) where
  closed : Bool
  tries : List (Try d)

/-- metropolis_hastings.py:91 the proposed point. -/
noncomputable def propose (c : Cfg d) (x z : Fin d → ℝ) : Fin d → ℝ := clip c.lo c.hi (x + z)

/-- metropolis_hastings.py:97-108 `alpha`. -/
noncomputable def alpha (c : Cfg d) (x y : Fin d → ℝ) : XF ℝ :=
  (c.target y - c.target x) + (c.prop (x - y) - c.prop (y - x))

/-- metropolis_hastings.py:111-114 `alpha > np.log(accept)`. -/
noncomputable def accepts (c : Cfg d) (x y : Fin d → ℝ) (u : ℝ) : Bool :=
  XF.ltb (XF.log (.fin u)) (alpha c x y)

/-- metropolis_hastings.py:89-116 the loop body; the loop state is the object, `x_new` and `accepted`. -/
noncomputable def tryBody (c : Cfg d) (x : Fin d → ℝ) (t : Try d) (p : MH d × (Fin d → ℝ) × Bool) :
    (MH d × (Fin d → ℝ) × Bool) × Option PyErr :=
  let y := propose c x t.z
  (({ p.1 with
      numQ := p.1.numQ + 1
      trajS := p.1.trajS ++ [y]
      numPi := p.1.numPi + 2
      numQEval := p.1.numQEval + 2
      trajT := p.1.trajT ++ [.reject] }, y, accepts c x y t.u), none)

/-- `self.trajectory_types[-1] = label`; IndexError (`none`) on the empty list. -/
def relabel (l : Label) (S : MH d) : Option (MH d) :=
  if S.trajT = [] then none else some { S with trajT := S.trajT.dropLast ++ [l] }

/-- metropolis_hastings.py:83-120 `mcmc_step`: the object and the returned point. -/
noncomputable def mcmcStep (c : Cfg d) (x : Fin d → ℝ) (env : StepEnv d) (S : MH d) : Out (MH d × (Fin d → ℝ)) :=
  match whileScript (fun p => !p.2.2) Try.late (tryBody c x) env.closed env.tries (S, x, false) with
  | .running p => .running (p.1, p.2.1)
  | .raised e p => .raised e (p.1, p.2.1)
  | .done p =>
    match relabel .accept p.1 with
    | none => .raised .index (p.1, p.2.1)
    | some S' => .done (S', p.2.1)

/-- metropolis_hastings.py:67-68 and 128-129: a step from the current sample, which it replaces, and a label. -/
noncomputable def advance (c : Cfg d) (l : Label) (env : StepEnv d) (S : MH d) : Out (MH d) :=
  match mcmcStep c S.cur env S with
  | .running p => .running p.1
  | .raised e p => .raised e p.1
  | .done p =>
    let S' := { p.1 with cur := p.2 }
    match relabel l S' with
    | none => .raised .index S'
    | some S'' => .done S''

/-- metropolis_hastings.py:126-131 one iteration of the outer loop of `mcmc`; the second component collects the
samples. -/
noncomputable def mcmcIter (c : Cfg d) (env : ℕ → StepEnv d) (p : MH d × List (Fin d → ℝ)) :
    Out (MH d × List (Fin d → ℝ)) :=
  match forN (fun j S => advance c .decorrelation (env j) S) c.nSteps p.1 with
  | .running S => .running (S, p.2)
  | .raised e S => .raised e (S, p.2)
  | .done S =>
    match relabel .sample S with
    | none => .raised .index (S, p.2)
    | some S' => .done (S', p.2 ++ [S'.cur])

/-- metropolis_hastings.py:122-132 `mcmc`. -/
noncomputable def mcmc (c : Cfg d) (n : ℕ) (env : ℕ → ℕ → StepEnv d) (S : MH d) : Out (MH d × List (Fin d → ℝ)) :=
  forN (fun i p => mcmcIter c (env i) p) n (S, [])

/-- metropolis_hastings.py:65-69 the burn in; its steps have the default timeout of 60 seconds. -/
noncomputable def burnIn (c : Cfg d) (burn : ℕ → List (Try d)) (S : MH d) : Out (MH d) :=
  if S.isInit then .done S else
    match forN (fun j S => advance c .burnIn ⟨false, burn j⟩ S) c.nBurnin S with
    | .running S => .running S
    | .raised e S => .raised e S
    | .done S => .done { S with isInit := true }

/-- metropolis_hastings.py:72-74 one iteration of the loop of `sample`. -/
noncomputable def sampleIter (c : Cfg d) (n : ℕ) (env : ℕ → ℕ → StepEnv d) (p : MH d × List (Fin d → ℝ)) :
    Out (MH d × List (Fin d → ℝ)) :=
  match mcmc c n env p.1 with
  | .running r => .running (r.1, p.2)
  | .raised e r => .raised e (r.1, p.2)
  | .done r => .done (r.1, p.2 ++ r.2)

/-- metropolis_hastings.py:57-75 `sample`: the object and the returned samples. -/
noncomputable def sample (c : Cfg d) (n : ℕ) (burn : ℕ → List (Try d)) (env : ℕ → ℕ → ℕ → StepEnv d) (S : MH d) :
    Out (MH d × List (Fin d → ℝ)) :=
  match burnIn c burn S with
  | .running S => .running (S, [])
  | .raised e S => .raised e (S, [])
  | .done S => forN (fun i p => sampleIter c n (env i) p) n (S, [])

/-- Random outcomes and clock of one iteration of `importance_sample`. -/
structure Iter (d : ℕ) where
  burn : ℕ → List (Try d)
  env : ℕ → ℕ → ℕ → StepEnv d
  late : Bool

/-- metropolis_hastings.py:140-141. -/
noncomputable def body (c : Cfg d) (it : Iter d) (S : MH d) : Out (MH d) :=
  match sample c 1 it.burn it.env S with
  | .running p => .running p.1
  | .raised e p => .raised e p.1
  | .done p => .done { p.1 with samples := p.1.samples ++ p.2 }

/-- base.py:162-179 `_update_model`: `np.random.random_integers(0, -1)` is a ValueError without samples, `1/n_samples_kde`
a ZeroDivisionError for zero components. `idx j` modulo the number of samples is the j-th index drawn. Only the centres
of the components are kept; their covariance `diag(kde_bw)` is a constant. -/
def updateModel (nKde : ℕ) (idx : ℕ → ℕ) (samples : List (Fin d → ℝ)) : Except PyErr (List (Fin d → ℝ)) :=
  if samples = [] then .error .value
  else if nKde = 0 then .error .zeroDivision
  else .ok ((List.range nKde).map fun j => (samples[idx j % samples.length]?).getD 0)

/-- metropolis_hastings.py:134-146 `importance_sample`; `expired` is `0 >= timeout`. -/
noncomputable def importanceSample (c : Cfg d) (n : ℕ) (expired : Bool) (script : List (Iter d)) (idx : ℕ → ℕ)
    (S : MH d) : Out (MH d) :=
  match whileOut (fun S => decide (S.samples.length < n)) Iter.late (body c) expired script S with
  | .running S => .running S
  | .raised e S => .raised e S
  | .done S =>
    let S := { S with weights := List.replicate S.samples.length (XF.fin (1 / (S.samples.length : ℝ))) }
    match updateModel c.nKde idx S.samples with
    | .error e => .raised e S
    | .ok m => .done { S with kde := some m }

end MHast
end Verif
