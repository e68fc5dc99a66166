import Verif.Model.MH

/-!
# Rejection sampling: `sampling_methods/rejection.py`

`target` and `prop` are the `prob` methods of the target and of the proposal distribution.
-/

set_option linter.unusedSectionVars false
set_option autoImplicit false

namespace Verif
namespace Rejection

variable {d : ℕ}

/-- Parameters. -/
structure Cfg (d : ℕ) where
  target : (Fin d → ℝ) → XF ℝ
  prop : (Fin d → ℝ) → XF ℝ
  scaling : ℝ
  nKde : ℕ

/-- Object state: base.py:21-26, 138. `drawn` is not part of the object: it counts the points the proposal distribution
was asked for, as an observer of the proposal distribution would. -/
structure Rej (d : ℕ) where
  samples : List (Fin d → ℝ)
  weights : List (XF ℝ)
  kde : Option (List (Fin d → ℝ))
  numPi : ℕ
  numQEval : ℕ
  numQ : ℕ
  drawn : ℕ

/-- rejection.py:11-15 the constructor, and `reset` inherited from base.py:141-143, 29-35. -/
def init : Rej d := ⟨[], [], none, 0, 0, 0, 0⟩

/-- Random outcomes and clock of one iteration: points drawn from the proposal, uniform numbers. -/
structure Iter (d : ℕ) where
  pts : ℕ → Fin d → ℝ
  u : ℕ → ℝ
  late : Bool

/-- rejection.py:26-32 `acceptance_ratio` of a point. -/
noncomputable def ratio (c : Cfg d) (x : Fin d → ℝ) : XF ℝ := c.target x / (c.prop x * .fin c.scaling)

/-- rejection.py:38 `acceptance_ratio > acceptance_prob` for one point. -/
noncomputable def accepts (c : Cfg d) (x : Fin d → ℝ) (u : ℝ) : Bool := XF.ltb (.fin u) (ratio c x)

/-- rejection.py:22-46 one iteration of `importance_sample(n)`. The counters grow by `n_samples`. -/
noncomputable def body (c : Cfg d) (n : ℕ) (it : Iter d) (S : Rej d) : Rej d × Option PyErr :=
  let m := n - S.samples.length
  let acc := (List.range m).filter fun j => accepts c (it.pts j) (it.u j)
  ({ S with
      numQ := S.numQ + n
      numPi := S.numPi + n
      numQEval := S.numQEval + n
      drawn := S.drawn + m
      samples := S.samples ++ acc.map it.pts
      weights := S.weights ++ acc.map fun j => ratio c (it.pts j) }, none)

/-- rejection.py:17-51 `importance_sample`; `expired` is the outcome of the first clock comparison. The final weights
have the length of `self.weights`; without samples `_update_model` raises. -/
noncomputable def importanceSample (c : Cfg d) (n : ℕ) (expired : Bool) (script : List (Iter d)) (idx : ℕ → ℕ)
    (S : Rej d) : Out (Rej d) :=
  match whileScript (fun S => decide (S.samples.length < n)) Iter.late (body c n) expired script S with
  | .running S => .running S
  | .raised e S => .raised e S
  | .done S =>
    let S := { S with weights := List.replicate S.weights.length (XF.fin (1 / (S.weights.length : ℝ))) }
    match MHast.updateModel c.nKde idx S.samples with
    | .error e => .raised e S
    | .ok m => .done { S with kde := some m }

/-- base.py:37-39 `get_acceptance_rate`: asserts that there are samples; `_num_q_samples = 0` is a ZeroDivisionError. -/
noncomputable def acceptanceRate (S : Rej d) : Except PyErr ℝ :=
  if S.samples = [] then .error .assertion
  else if S.numQ = 0 then .error .zeroDivision
  else .ok ((S.samples.length : ℝ) / S.numQ)

/-- rejection.py:61-62 `prob` at a point; it overrides the method of the base class, `log_prob` is inherited. -/
noncomputable def prob (c : Cfg d) (x : Fin d → ℝ) : XF ℝ := c.prop x * .fin c.scaling

end Rejection
end Verif
