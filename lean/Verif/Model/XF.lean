import Mathlib.Algebra.Order.Field.Basic
import Mathlib.Algebra.BigOperators.Group.List.Basic
import Mathlib.Analysis.SpecialFunctions.Log.Basic

/-!
# Idealised numpy floats

`XF K` is a field `K` extended with `+inf`, `-inf` and `nan`. It stands for `np.float64` in those parts of the
code where NaN or infinities decide a branch or where a division by zero is reachable.

Simplifications with respect to IEEE 754: no rounding, no overflow, a single unsigned zero (so `x / 0` is `+inf`
for `x > 0` and `-inf` for `x < 0`, which is what numpy returns for a zero of positive sign).
-/

set_option linter.unusedSectionVars false
set_option autoImplicit false

namespace Verif

/-- Extended numbers: finite values, the two infinities and NaN. -/
inductive XF (K : Type*) where
  | fin (x : K)
  | pinf
  | ninf
  | nan
  deriving DecidableEq

namespace XF

variable {K : Type*}

/-- `np.isnan`. -/
def isNan : XF K → Bool
  | nan => true
  | _ => false

section Ops
variable [Field K] [LinearOrder K]

instance : Zero (XF K) := ⟨fin 0⟩
instance : One (XF K) := ⟨fin 1⟩

/-- IEEE addition without rounding. -/
protected def add : XF K → XF K → XF K
  | fin a, fin b => fin (a + b)
  | nan, _ => nan
  | _, nan => nan
  | pinf, ninf => nan
  | ninf, pinf => nan
  | pinf, _ => pinf
  | _, pinf => pinf
  | ninf, _ => ninf
  | _, ninf => ninf

instance : Add (XF K) := ⟨XF.add⟩

/-- IEEE negation. -/
protected def neg : XF K → XF K
  | fin a => fin (-a)
  | pinf => ninf
  | ninf => pinf
  | nan => nan

instance : Neg (XF K) := ⟨XF.neg⟩

/-- IEEE subtraction. -/
instance : Sub (XF K) := ⟨fun a b => a + -b⟩

/-- `inf * a` for a finite `a`: the sign of `a` decides, `inf * 0` is NaN. -/
def infMul (a : K) : XF K := if 0 < a then pinf else if a < 0 then ninf else nan

/-- IEEE multiplication without rounding. -/
protected def mul : XF K → XF K → XF K
  | fin a, fin b => fin (a * b)
  | nan, _ => nan
  | _, nan => nan
  | pinf, fin b => infMul b
  | fin a, pinf => infMul a
  | ninf, fin b => XF.neg (infMul b)
  | fin a, ninf => XF.neg (infMul a)
  | pinf, pinf => pinf
  | ninf, ninf => pinf
  | pinf, ninf => ninf
  | ninf, pinf => ninf

instance : Mul (XF K) := ⟨XF.mul⟩

/-- IEEE division without rounding; division by (positive) zero gives infinities, `0/0` gives NaN. -/
protected def div : XF K → XF K → XF K
  | nan, _ => nan
  | _, nan => nan
  | fin a, fin b => if b = 0 then infMul a else fin (a / b)
  | fin _, pinf => fin 0
  | fin _, ninf => fin 0
  | pinf, fin b => if b < 0 then ninf else pinf
  | ninf, fin b => if b < 0 then pinf else ninf
  | pinf, pinf => nan
  | pinf, ninf => nan
  | ninf, pinf => nan
  | ninf, ninf => nan

instance : Div (XF K) := ⟨XF.div⟩

/-- IEEE `<`; every comparison with NaN is false. -/
def ltb : XF K → XF K → Bool
  | fin a, fin b => decide (a < b)
  | ninf, fin _ => true
  | ninf, pinf => true
  | fin _, pinf => true
  | _, _ => false

/-- IEEE `<=`; every comparison with NaN is false. -/
def leb : XF K → XF K → Bool
  | fin a, fin b => decide (a ≤ b)
  | ninf, fin _ => true
  | ninf, pinf => true
  | ninf, ninf => true
  | fin _, pinf => true
  | pinf, pinf => true
  | _, _ => false

@[simp] theorem zero_def : (0 : XF K) = fin 0 := rfl
@[simp] theorem one_def : (1 : XF K) = fin 1 := rfl
@[simp] theorem fin_add (a b : K) : (fin a + fin b : XF K) = fin (a + b) := rfl
@[simp] theorem fin_mul (a b : K) : (fin a * fin b : XF K) = fin (a * b) := rfl
@[simp] theorem neg_fin (a : K) : (-fin a : XF K) = fin (-a) := rfl
@[simp] theorem fin_sub (a b : K) : (fin a - fin b : XF K) = fin (a - b) := by
  show fin a + -fin b = _
  simp [sub_eq_add_neg]
theorem fin_div (a b : K) : (fin a / fin b : XF K) = if b = 0 then infMul a else fin (a / b) := rfl
theorem fin_div_ne (a b : K) (h : b ≠ 0) : (fin a / fin b : XF K) = fin (a / b) := by
  rw [fin_div, if_neg h]
@[simp] theorem nan_add (a : XF K) : (nan + a : XF K) = nan := by cases a <;> rfl
@[simp] theorem add_nan (a : XF K) : (a + nan : XF K) = nan := by cases a <;> rfl
@[simp] theorem nan_mul (a : XF K) : (nan * a : XF K) = nan := by cases a <;> rfl
@[simp] theorem mul_nan (a : XF K) : (a * nan : XF K) = nan := by cases a <;> rfl
@[simp] theorem nan_div (a : XF K) : (nan / a : XF K) = nan := by cases a <;> rfl
@[simp] theorem div_nan (a : XF K) : (a / nan : XF K) = nan := by cases a <;> rfl

instance : AddCommMonoid (XF K) where
  add := (· + ·)
  zero := 0
  add_assoc := by
    intro a b c
    cases a <;> cases b <;> cases c <;> first | rfl | exact congrArg fin (add_assoc _ _ _)
  zero_add := by
    intro a
    cases a <;> first | rfl | exact congrArg fin (zero_add _)
  add_zero := by
    intro a
    cases a <;> first | rfl | exact congrArg fin (add_zero _)
  add_comm := by
    intro a b
    cases a <;> cases b <;> first | rfl | exact congrArg fin (add_comm _ _)
  nsmul := nsmulRec

/-- The sum of finite numbers is the finite sum. -/
@[simp] theorem sum_map_fin (l : List K) : (l.map fin).sum = (fin l.sum : XF K) := by
  induction l with
  | nil => rfl
  | cons a l ih => simp [ih]

/-- `True` for finite values. -/
def isFin : XF K → Bool
  | fin _ => true
  | _ => false

end Ops

/-- `np.log` on extended reals: `log 0 = -inf`, `log` of a negative number is NaN. -/
noncomputable def log : XF ℝ → XF ℝ
  | fin x => if x < 0 then nan else if x = 0 then ninf else fin (Real.log x)
  | pinf => pinf
  | ninf => nan
  | nan => nan

/-- `np.exp` on extended reals. -/
noncomputable def exp : XF ℝ → XF ℝ
  | fin x => fin (Real.exp x)
  | pinf => pinf
  | ninf => fin 0
  | nan => nan

end XF
end Verif
