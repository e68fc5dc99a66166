import Verif.Model.Benchmark
import Verif.Model.XF
import Mathlib.Data.Nat.Digits.Lemmas

/-!
# The numbers in the result file

Python's `%d` and `%.pf` as used by `write_results` (benchmark/CBenchmark.py:321-325).
-/

set_option linter.unusedSectionVars false
set_option autoImplicit false

namespace Verif
namespace Bench

variable {K : Type*} [Field K] [LinearOrder K]

/-- The character of a digit. -/
def digitChar (d : ℕ) : Char := Char.ofNat (48 + d)

/-- `%d` of a number that is not negative (CBenchmark.py:321, 323: dims, nsamples and the counters). -/
def natText (n : ℕ) : List Char := if n = 0 then ['0'] else (Nat.digits 10 n).reverse.map digitChar

/-- `%.pf`, `p > 0` (CBenchmark.py:322, 323: `%9.5f`, `%9.3f` and `%5.3f` without the padding). Python rounds to a nearest
multiple of `10^-p`; which one it takes in the middle between two is left to `rnd`. -/
def decText (rnd : K → ℕ) (p : ℕ) : XF K → List Char
  | .nan => ['n', 'a', 'n']
  | .pinf => ['i', 'n', 'f']
  | .ninf => ['-', 'i', 'n', 'f']
  | .fin x =>
    (if x < 0 then ['-'] else []) ++
      (natText (rnd (|x| * 10 ^ p) / 10 ^ p) ++ '.' :: zpad p (natText (rnd (|x| * 10 ^ p) % 10 ^ p)))

/-- The formatting of the lines of the result file. -/
def printf (rnd : K → ℕ) : Fmt (XF K) := ⟨natText, decText rnd⟩

end Bench
end Verif
