import Verif.Model.SearchSpace
import Mathlib.Tactic.Linarith
import Mathlib.Tactic.Positivity
import Mathlib.Tactic.FieldSimp
import Mathlib.Tactic.NormNum
import Mathlib.Data.Fin.VecNotation

/-!
# Property C126: the methods search the box the target reports
-/

set_option linter.unusedSectionVars false
set_option autoImplicit false

namespace Verif
namespace SearchSpace

variable {d : ℕ}

theorem positional_close (R : Rounding) (x : ℝ) : |positional R x - x| ≤ 5 / 10 ^ 9 := by
  have h := R.close (x * 10 ^ 8)
  have e : positional R x - x = (R.rnd (x * 10 ^ 8) - x * 10 ^ 8) / 10 ^ 8 := by
    unfold positional; field_simp
  rw [e, abs_div, abs_of_pos (show (0:ℝ) < 10 ^ 8 by positivity), div_le_iff₀ (by positivity)]
  refine h.trans (le_of_eq ?_)
  norm_num

theorem scientific_close (R : Rounding) (x : ℝ) : |scientific R x - x| ≤ 5 / 10 ^ 9 * |x| := by
  unfold scientific
  split_ifs with h0
  · simp [h0]
  · have hx : 0 < |x| := abs_pos.2 h0
    set p : ℝ := (10:ℝ) ^ Int.log 10 |x| with hp
    have hp0 : 0 < p := zpow_pos (by norm_num) _
    have hpx : p ≤ |x| := by simpa using Int.zpow_log_le_self (b := 10) (by norm_num) hx
    have h := R.close (x / p * 10 ^ 8)
    have e : (R.rnd (x / p * 10 ^ 8) : ℝ) / 10 ^ 8 * p - x = (R.rnd (x / p * 10 ^ 8) - x / p * 10 ^ 8) * (p / 10 ^ 8) := by
      field_simp
    rw [e, abs_mul, abs_of_pos (show 0 < p / 10 ^ 8 by positivity)]
    calc _ ≤ 1/2 * (p / 10 ^ 8) := mul_le_mul_of_nonneg_right h (by positivity)
      _ ≤ 1/2 * (|x| / 10 ^ 8) := by gcongr
      _ = _ := by ring

theorem printed_close (R : Rounding) (x : Fin d → ℝ) (hd : d ≤ 1000) :
    ∃ y, printed R x = some y ∧ ∀ i, |y i - x i| ≤ 5 / 10 ^ 9 * max 1 |x i| := by
  unfold printed
  rw [if_neg (by omega)]
  split_ifs
  · refine ⟨_, rfl, fun i => (scientific_close R (x i)).trans ?_⟩
    gcongr
    exact le_max_right _ _
  · refine ⟨_, rfl, fun i => (positional_close R (x i)).trans ?_⟩
    have := le_max_left 1 |x i|
    nlinarith

theorem rnd_int (R : Rounding) (n : ℤ) : R.rnd n = n := by
  have h := R.close n
  have h2 : |R.rnd n - n| < 1 := by
    have : ((|R.rnd n - n| : ℤ) : ℝ) < 1 := by
      push_cast
      linarith
    exact_mod_cast this
  have := Int.abs_lt_one_iff.1 h2
  omega

/-- A number with at most 8 fractional digits. -/
def ShortDecimal (x : ℝ) : Prop := ∃ n : ℤ, x = n / 10 ^ 8

/-- **C126** (part) Up to 1000 dimensions every corner coordinate a method receives differs from the support of the target by at
most `5e-9 * max(1, |x|)`; a box that is wide enough keeps its orientation; and the box is the support exactly if the
coordinates have at most 8 fractional digits and are printed in positional notation. Missing: exactness, see `C126_refuted`. -/
theorem C126_partial (R : Rounding) (lo hi : Fin d → ℝ) (hd : d ≤ 1000) :
    ∃ a b, received R lo hi = some (a, b) ∧
      (∀ i, |a i - lo i| ≤ 5 / 10 ^ 9 * max 1 |lo i|) ∧ (∀ i, |b i - hi i| ≤ 5 / 10 ^ 9 * max 1 |hi i|) ∧
      (∀ i, (max 1 |lo i| + max 1 |hi i|) / 10 ^ 8 < hi i - lo i → a i < b i) ∧
      ((∀ i, ShortDecimal (lo i) ∧ ShortDecimal (hi i)) → ¬ Scientific lo → ¬ Scientific hi → a = lo ∧ b = hi) := by
  obtain ⟨a, ha, ha'⟩ := printed_close R lo hd
  obtain ⟨b, hb, hb'⟩ := printed_close R hi hd
  have hexact : ∀ x y : Fin d → ℝ, printed R x = some y → (∀ i, ShortDecimal (x i)) → ¬ Scientific x → y = x := by
    intro x y hy hs hsc
    unfold printed at hy
    rw [if_neg (by omega), if_neg hsc] at hy
    cases hy
    funext i
    obtain ⟨n, hn⟩ := hs i
    unfold positional
    rw [hn, div_mul_cancel₀ _ (by positivity), rnd_int]
  refine ⟨a, b, by simp [received, ha, hb], ha', hb', fun i hi' => ?_, fun hs h1 h2 =>
    ⟨hexact _ _ ha (fun i => (hs i).1) h1, hexact _ _ hb (fun i => (hs i).2) h2⟩⟩
  have e1 := (abs_le.1 (ha' i)).2
  have e2 := (abs_le.1 (hb' i)).1
  have m1 := le_max_left 1 |lo i|
  have m2 := le_max_left 1 |hi i|
  have : (max 1 |lo i| + max 1 |hi i|) / 10 ^ 8 = 10 / 10 ^ 9 * max 1 |lo i| + 10 / 10 ^ 9 * max 1 |hi i| := by ring
  rw [this] at hi'
  have h3 : (0:ℝ) < 5 / 10 ^ 9 := by norm_num
  nlinarith

/-- **C126** (part) A support whose corners are integers of magnitude at most 1000 is received exactly. -/
theorem C126_partial_integers (R : Rounding) (lo hi : Fin d → ℤ) (hd : d ≤ 1000) (hl : ∀ i, |lo i| ≤ 1000)
    (hh : ∀ i, |hi i| ≤ 1000) :
    received R (fun i => (lo i : ℝ)) (fun i => (hi i : ℝ)) = some (fun i => (lo i : ℝ), fun i => (hi i : ℝ)) := by
  have hs : ∀ x : Fin d → ℤ, (∀ i, |x i| ≤ 1000) → ¬ Scientific (fun i => (x i : ℝ)) := by
    intro x hx
    have hx' : ∀ i, |(x i : ℝ)| ≤ 1000 := fun i => by exact_mod_cast hx i
    have h1 : ∀ i, (x i : ℝ) ≠ 0 → 1 ≤ |(x i : ℝ)| := fun i h => by
      have : x i ≠ 0 := by exact_mod_cast h
      exact_mod_cast Int.one_le_abs this
    rintro ⟨-, ⟨i, h⟩ | ⟨i, h0, h⟩ | ⟨i, j, h0, h⟩⟩
    · linarith [hx' i]
    · linarith [h1 i h0]
    · linarith [hx' i, h1 j h0]
  have hd' : ∀ n : ℤ, ShortDecimal (n : ℝ) := fun n => ⟨n * 10 ^ 8, by push_cast; norm_num⟩
  obtain ⟨a, b, h, -, -, -, he⟩ := C126_partial R (fun i => (lo i : ℝ)) (fun i => (hi i : ℝ)) hd
  obtain ⟨rfl, rfl⟩ := he (fun i => ⟨hd' _, hd' _⟩) (hs lo hl) (hs hi hh)
  exact h

example (R : Rounding) : received R (fun i : Fin 2 => ((![-10, 0] i : ℤ) : ℝ)) (fun i => ((![7, 1000] i : ℤ) : ℝ)) =
    some (fun i => ((![-10, 0] i : ℤ) : ℝ), fun i => ((![7, 1000] i : ℤ) : ℝ)) :=
  C126_partial_integers R _ _ (by norm_num) (by decide) (by decide)

/-- A rounding exists. -/
noncomputable example : Rounding := ⟨round, fun x => by rw [abs_sub_comm]; exact abs_sub_round x⟩

/-- The box `[-10, 10]^2` of the banana target is received exactly. -/
example (R : Rounding) : ∃ a b, received R (fun _ : Fin 2 => -10) (fun _ => 10) = some (a, b) ∧ a = (fun _ => -10) ∧ b = fun _ => 10 := by
  obtain ⟨a, b, h, -, -, -, he⟩ := C126_partial R (fun _ : Fin 2 => -10) (fun _ => 10) (by norm_num)
  refine ⟨a, b, h, he (fun i => ⟨⟨-10 * 10 ^ 8, by norm_num⟩, ⟨10 * 10 ^ 8, by norm_num⟩⟩) ?_ ?_⟩
  · unfold Scientific; norm_num
  · unfold Scientific; norm_num

theorem not_scientific {x : ℝ} (h1 : 1/10000 ≤ |x|) (h2 : |x| < 100000000) : ¬ Scientific (fun _ : Fin 1 => x) := by
  rintro ⟨-, ⟨i, h⟩ | ⟨i, -, h⟩ | ⟨i, j, -, h⟩⟩
  · linarith
  · linarith
  · linarith [abs_nonneg x]

/-- **C126, refuted**: the support `[1/3, 1]` is received as a box with another corner; two different corners can become equal, so that the box is empty; and beyond 1000 dimensions no box of the
right dimension is received at all. -/
theorem C126_refuted (R : Rounding) :
    (∃ a b, received R (fun _ : Fin 1 => 1/3) (fun _ => 1) = some (a, b) ∧ a ≠ fun _ => 1/3) ∧
    (∃ a b, received R (fun _ : Fin 1 => 1) (fun _ => 1 + 1/10 ^ 9) = some (a, b) ∧ a = b) ∧
    (∀ lo hi : Fin 1001 → ℝ, received R lo hi = none) := by
  refine ⟨?_, ?_, fun lo hi => ?_⟩
  · refine ⟨_, _, by
      simp only [received, printed]
      rw [if_neg (by norm_num), if_neg (not_scientific (by norm_num [abs_of_pos]) (by norm_num [abs_of_pos])),
        if_neg (by norm_num), if_neg (not_scientific (by norm_num) (by norm_num))], ?_⟩
    intro h
    have h := congrFun h 0
    simp only [positional] at h
    have h2 : (3 * R.rnd (1 / 3 * 10 ^ 8) : ℝ) = 10 ^ 8 := by
      field_simp at h
      linarith
    have h3 : 3 * R.rnd (1 / 3 * 10 ^ 8) = 10 ^ 8 := by exact_mod_cast h2
    omega
  · refine ⟨_, _, by
      simp only [received, printed]
      rw [if_neg (by norm_num), if_neg (not_scientific (by norm_num) (by norm_num)),
        if_neg (by norm_num), if_neg (not_scientific (by norm_num [abs_of_pos]) (by norm_num [abs_of_pos]))], ?_⟩
    funext i
    simp only [positional]
    congr 2
    have e1 : R.rnd (1 * 10 ^ 8) = 10 ^ 8 := by
      have h := rnd_int R (10 ^ 8)
      rwa [show (((10 ^ 8 : ℤ)) : ℝ) = 1 * 10 ^ 8 by norm_num] at h
    have h := R.close ((1 + 1 / 10 ^ 9) * 10 ^ 8)
    have h1 := abs_le.1 h
    have h2 : (R.rnd ((1 + 1 / 10 ^ 9) * 10 ^ 8) : ℝ) < (10 ^ 8 + 1 : ℤ) := by push_cast; norm_num at h1 ⊢; linarith
    have h3 : ((10 ^ 8 - 1 : ℤ) : ℝ) < R.rnd ((1 + 1 / 10 ^ 9) * 10 ^ 8) := by push_cast; norm_num at h1 ⊢; linarith
    have h4 : R.rnd ((1 + 1 / 10 ^ 9) * 10 ^ 8) < 10 ^ 8 + 1 := by exact_mod_cast h2
    have h5 : 10 ^ 8 - 1 < R.rnd ((1 + 1 / 10 ^ 9) * 10 ^ 8) := by exact_mod_cast h3
    rw [e1]
    omega
  · simp [received, printed]

end SearchSpace
end Verif
