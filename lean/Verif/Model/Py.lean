import Mathlib.Data.List.Basic

/-!
# Python exceptions and small list utilities standing for numpy array operations
-/

namespace Verif

/-- The python exceptions the modelled code can raise. -/
inductive PyErr where
  | assertion
  | value
  | index
  | type
  | name
  | zeroDivision
  | notImplemented
  | runtime
  | timeout
  | attribute
  | key
  | os
  deriving DecidableEq, Repr

/-- numpy fancy assignment with a boolean mask: `a[mask] = v` replaces the entries for which `p` holds. -/
def maskSet {α : Type*} (p : α → Bool) (v : α) (l : List α) : List α :=
  l.map fun a => if p a then v else a

/-- numpy boolean selection `a[mask]` with a separate mask array. -/
def maskSelect {α : Type*} : List Bool → List α → List α
  | true :: m, a :: l => a :: maskSelect m l
  | false :: m, _ :: l => maskSelect m l
  | _, _ => []

/-- numpy `a[i] = v` for an in range index (out of range leaves the list unchanged, callers
guard the range explicitly). -/
def setAt {α : Type*} (l : List α) (i : ℕ) (v : α) : List α := l.set i v

/-- Sum over axis 0 of a list of rows of length `n` (`np.sum(rows, axis=0)`). -/
def sumAxis0 {α : Type*} [Add α] [Zero α] (n : ℕ) (rows : List (List α)) : List α :=
  rows.foldl (List.zipWith (· + ·)) (List.replicate n 0)

end Verif
