import Mathlib.Algebra.Order.Floor.Ring
import Mathlib.Algebra.Order.Field.Basic
import Mathlib.Data.List.Basic

/-!
# `utils/misc.py`: `time_to_hms` and `CNonBlockingStreamReader`
-/

set_option linter.unusedSectionVars false
set_option autoImplicit false

namespace Verif

section Hms
variable {K : Type*} [Field K] [LinearOrder K] [FloorRing K]

/-- Python `a // b` on numbers, without rounding. -/
def floorDiv (a b : K) : K := (⌊a / b⌋ : K)

/-- misc.py:73-77 `time_to_hms`. -/
def timeToHms (t : K) : K × K × K :=
  let hours := floorDiv t 3600
  let mins := floorDiv (t - hours * 3600) 60
  let secs := t - hours * 3600 - mins * 60
  (hours, mins, secs)

end Hms

/-! ### The stream reader

Two threads share a queue: the reader thread started by the constructor (misc.py:14-22) and the thread that calls
`read` and `read_last_and_clear`. Every operation on the `queue.Queue` object is atomic (its methods hold its lock), so
an execution is a list of atomic actions of the two threads in an arbitrary order. `L` is the type of the non empty
lines; the empty line is what `if l:` drops and what `read` returns for an empty queue. Simplified: one calling thread. -/

namespace Reader
variable {L : Type*}

/-- A method call. -/
inductive Call where
  | read
  | readLast (keep : Bool)
  deriving DecidableEq

/-- Where the calling thread is. -/
inductive Pc (L : Type*) where
  /-- Outside the object. -/
  | idle
  /-- misc.py:35: about to execute `self._q.get(block=False)`. -/
  | read
  /-- misc.py:26: about to evaluate `self._q.empty()`. -/
  | test (keep : Bool) (val : Option L)
  /-- misc.py:27: about to execute `self._q.get()`. -/
  | get (keep : Bool) (val : Option L)
  /-- misc.py:30: about to execute `self._q.put(val)`. -/
  | putBack (val : L)
  deriving DecidableEq

/-- The queue, the line the reader thread holds between `readline` (misc.py:16) and `put` (misc.py:18), and the position
of the calling thread. -/
structure St (L : Type*) where
  q : List L
  held : Option L
  pc : Pc L
  deriving DecidableEq

/-- misc.py:10-22: the constructor creates the queue and starts the thread. -/
def init : St L := ⟨[], none, .idle⟩

/-- Atomic actions. -/
inductive Act (L : Type*) where
  /-- Reader thread, misc.py:16-17: `readline` returns a line, `none` being the empty line. -/
  | readline (l : Option L)
  /-- Reader thread, misc.py:18: `q.put(l)`. -/
  | put
  /-- The calling thread calls a method. -/
  | call (c : Call)
  /-- The calling thread executes its next operation on the queue. -/
  | step
  deriving DecidableEq

/-- What a finished call returned: `none` stands for `""` (`read`) and for `None` (`read_last_and_clear`). -/
structure Ret (L : Type*) where
  call : Call
  val : Option L
  deriving DecidableEq

/-- misc.py:29-31, reached when the queue was seen empty. -/
def leave (s : St L) (keep : Bool) : Option L → St L × Option (Ret L)
  | some v => if keep then (⟨s.q, s.held, .putBack v⟩, none) else (⟨s.q, s.held, .idle⟩, some ⟨.readLast keep, some v⟩)
  | none => (⟨s.q, s.held, .idle⟩, some ⟨.readLast keep, none⟩)

/-- One action; `none` when the thread cannot take it in this state. The calling thread cannot take `step` at
`get` with an empty queue: there `self._q.get()` blocks. -/
def act (s : St L) : Act L → Option (St L × Option (Ret L))
  | .readline l => match s.held with
    | none => some (⟨s.q, l, s.pc⟩, none)
    | some _ => none
  | .put => match s.held with
    | none => none
    | some l => some (⟨s.q ++ [l], none, s.pc⟩, none)
  | .call c => match s.pc with
    | .idle => match c with
      | .read => some (⟨s.q, s.held, .read⟩, none)
      | .readLast keep => some (⟨s.q, s.held, .test keep none⟩, none)
    | _ => none
  | .step => match s.pc with
    | .idle => none
    | .read => match s.q with
      | [] => some (⟨[], s.held, .idle⟩, some ⟨.read, none⟩)
      | l :: q => some (⟨q, s.held, .idle⟩, some ⟨.read, some l⟩)
    | .test keep val => match s.q with
      | [] => some (leave s keep val)
      | _ :: _ => some (⟨s.q, s.held, .get keep val⟩, none)
    | .get keep _ => match s.q with
      | [] => none
      | l :: q => some (⟨q, s.held, .test keep (some l)⟩, none)
    | .putBack v => some (⟨s.q ++ [v], s.held, .idle⟩, some ⟨.readLast true, some v⟩)

/-- An execution: the actions in the order in which they happen, together with the values returned by the calls that
finished, in order; `none` when some action was not possible. -/
def exec : St L → List (Act L) → Option (St L × List (Ret L))
  | s, [] => some (s, [])
  | s, a :: as => match act s a with
    | none => none
    | some (s', r) => match exec s' as with
      | none => none
      | some (s'', rs) => some (s'', r.toList ++ rs)

end Reader
end Verif
