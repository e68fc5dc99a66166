import Verif.Model.Py

/-!
# Sampling loops driven by the environment

`while more_needed and elapsed_time < timeout: body` with a clock and a random generator the program does not control:
the environment supplies one record per iteration (random outcomes, and whether the clock was past the timeout when it
was read at the end of that iteration).
-/

set_option autoImplicit false

namespace Verif

/-- How a call ends: it returned, it raised, or it is still in the loop after the given iterations. The state is the
state of the object at that moment. -/
inductive Out (σ : Type*) where
  | done (s : σ)
  | raised (e : PyErr) (s : σ)
  | running (s : σ)
  deriving DecidableEq

namespace Out
variable {σ : Type*}

/-- State of the object. -/
def state : Out σ → σ
  | done s => s
  | raised _ s => s
  | running s => s

/-- The call returned. -/
def isDone : Out σ → Prop
  | done _ => True
  | _ => False

end Out

/-- The loop. `cond` is the part of the loop condition that depends on the object, `expired` is
`elapsed_time >= timeout` for the last clock reading, `late` tells the reading at the end of an iteration, `body` is one
iteration, which may raise. -/
def whileScript {σ ι : Type*} (cond : σ → Bool) (late : ι → Bool) (body : ι → σ → σ × Option PyErr)
    (expired : Bool) : List ι → σ → Out σ
  | [], s => if cond s && !expired then .running s else .done s
  | it :: rest, s =>
    if cond s && !expired then
      match body it s with
      | (s', none) => whileScript cond late body (late it) rest s'
      | (s', some e) => .raised e s'
    else .done s

/-- The same loop when an iteration contains loops of its own and may therefore still be running. -/
def whileOut {σ ι : Type*} (cond : σ → Bool) (late : ι → Bool) (body : ι → σ → Out σ) (expired : Bool) :
    List ι → σ → Out σ
  | [], s => if cond s && !expired then .running s else .done s
  | it :: rest, s =>
    if cond s && !expired then
      match body it s with
      | .done s' => whileOut cond late body (late it) rest s'
      | .raised e s' => .raised e s'
      | .running s' => .running s'
    else .done s

/-- `for i in range(n): f i`. -/
def forN {σ : Type*} (f : ℕ → σ → Out σ) : ℕ → σ → Out σ
  | 0, s => .done s
  | n + 1, s =>
    match forN f n s with
    | .done s' => f n s'
    | .raised e s' => .raised e s'
    | .running s' => .running s'

end Verif
