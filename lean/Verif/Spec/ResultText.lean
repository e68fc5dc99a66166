import Verif.Model.ResultText
import Verif.Props.BenchmarkText

/-!
# Vocabulary of C136: reading the numbers of the result file
-/

set_option linter.unusedSectionVars false
set_option autoImplicit false

namespace Verif
namespace Bench

variable {K : Type*} [Field K] [LinearOrder K]

/-- `rnd` gives a nearest natural number. -/
def Nearest (rnd : K → ℕ) : Prop := ∀ y, 0 ≤ y → |(rnd y : K) - y| ≤ 1 / 2

/-- The number written with decimal digits (any number of leading zeros). -/
def readNat (l : List Char) : Option ℕ :=
  if l ≠ [] ∧ ∀ ch ∈ l, 48 ≤ ch.toNat ∧ ch.toNat ≤ 57 then some (l.foldl (fun a ch => 10 * a + (ch.toNat - 48)) 0) else none

/-- Digits, a point, digits. -/
def readAbs (l : List Char) : Option K :=
  let i := l.takeWhile (· ≠ '.')
  let f := (l.dropWhile (· ≠ '.')).drop 1
  match readNat i, readNat f with
  | some a, some b => some ((a : K) + (b : K) / 10 ^ f.length)
  | _, _ => none

/-- A decimal number with or without a minus sign, or `nan`, `inf`, `-inf`. -/
def readNum (l : List Char) : Option (XF K) :=
  if l = ['n', 'a', 'n'] then some .nan
  else if l = ['i', 'n', 'f'] then some .pinf
  else if l = ['-', 'i', 'n', 'f'] then some .ninf
  else match l with
    | '-' :: r => (readAbs r).map fun y => .fin (-y)
    | r => (readAbs r).map .fin

/-- The text reads as a number at most `ε` away from `v`, or as `v` if `v` is infinite or not a number. -/
def ReadsNear (ε : K) (l : List Char) : XF K → Prop
  | .fin x => ∃ y, readNum l = some (.fin y) ∧ |y - x| ≤ ε
  | v => readNum l = some v

end Bench
end Verif
