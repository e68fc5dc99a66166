import Verif.Props.MHInvariant

/-!
# Metropolis-Hastings: the chain does not leave the target invariant (C48)
-/

set_option linter.unusedSectionVars false
set_option autoImplicit false

namespace Verif
namespace MHast

open MeasureTheory Set

/-- The unit interval, where the example target has density 2/3. -/
def hiSet : Set (Fin 1 → ℝ) := Set.pi univ fun _ => Icc 0 1

/-- The next interval, where it has density 1/3. -/
def loSet : Set (Fin 1 → ℝ) := Set.pi univ fun _ => Ioc 1 2

/-- Example target. -/
noncomputable def exP (x : Fin 1 → ℝ) : ℝ := hiSet.indicator (fun _ => 2/3) x + loSet.indicator (fun _ => 1/3) x

/-- Example proposal: offsets uniform in `[-3, 3]`. -/
noncomputable def exQ (z : Fin 1 → ℝ) : ℝ := (Set.pi univ fun _ => Icc (-3) 3 : Set (Fin 1 → ℝ)).indicator (fun _ => 1/6) z

theorem hiSet_meas : MeasurableSet hiSet := MeasurableSet.univ_pi fun _ => measurableSet_Icc
theorem loSet_meas : MeasurableSet loSet := MeasurableSet.univ_pi fun _ => measurableSet_Ioc
theorem hiSet_vol : volume hiSet = 1 := by
  rw [hiSet, volume_pi_pi]; simp
theorem loSet_vol : volume loSet = 1 := by
  rw [loSet, volume_pi_pi]; simp; norm_num

theorem exP_hi {x : Fin 1 → ℝ} (h : x ∈ hiSet) : exP x = 2/3 := by
  have : x ∉ loSet := fun h' => by
    have a := h 0 (mem_univ _); have b := h' 0 (mem_univ _)
    exact absurd a.2 (not_le.2 b.1)
  simp [exP, h, this]

theorem exP_lo {x : Fin 1 → ℝ} (h : x ∈ loSet) : exP x = 1/3 := by
  have : x ∉ hiSet := fun h' => by
    have a := h' 0 (mem_univ _); have b := h 0 (mem_univ _)
    exact absurd a.2 (not_le.2 b.1)
  simp [exP, h, this]

theorem exP_out {x : Fin 1 → ℝ} (h : x ∉ hiSet) (h' : x ∉ loSet) : exP x = 0 := by
  simp [exP, h, h']

theorem hilo_disj : Disjoint hiSet loSet := by
  rw [Set.disjoint_left]
  intro x h h'
  have a := h 0 (mem_univ _); have b := h' 0 (mem_univ _)
  exact absurd a.2 (not_le.2 b.1)

theorem mem_Icc02 {x : Fin 1 → ℝ} (h : x ∈ hiSet ∪ loSet) : 0 ≤ x 0 ∧ x 0 ≤ 2 := by
  rcases h with h | h
  · have a := h 0 (mem_univ _); exact ⟨a.1, a.2.trans (by norm_num)⟩
  · have a := h 0 (mem_univ _); exact ⟨by linarith [a.1], a.2⟩

theorem exQ_near {x y : Fin 1 → ℝ} (hx : x ∈ hiSet ∪ loSet) (hy : y ∈ hiSet ∪ loSet) : exQ (y - x) = 1/6 := by
  have a := mem_Icc02 hx
  have b := mem_Icc02 hy
  unfold exQ
  rw [indicator_of_mem]
  intro i _
  rw [Subsingleton.elim i 0]
  simp only [Pi.sub_apply, mem_Icc]
  constructor <;> linarith [a.1, a.2, b.1, b.2]

/-- Integrals of functions that vanish outside the two intervals and are constant on each. -/
theorem lintegral_two (B : Set (Fin 1 → ℝ)) (f : (Fin 1 → ℝ) → ENNReal) (a b : ENNReal) (hB : MeasurableSet B)
    (hh : ∀ x ∈ hiSet, f x = a) (hl : ∀ x ∈ loSet, f x = b) (ho : ∀ x, x ∉ hiSet → x ∉ loSet → f x = 0) :
    ∫⁻ x in B, f x = a * volume (hiSet ∩ B) + b * volume (loSet ∩ B) := by
  have hf : f = fun x => hiSet.indicator (fun _ => a) x + loSet.indicator (fun _ => b) x := by
    funext x
    by_cases h1 : x ∈ hiSet
    · have h2 : x ∉ loSet := fun h => Set.disjoint_left.1 hilo_disj h1 h
      simp [h1, h2, hh x h1]
    · by_cases h2 : x ∈ loSet
      · simp [h1, h2, hl x h2]
      · simp [h1, h2, ho x h1 h2]
  rw [hf, lintegral_add_left (measurable_const.indicator hiSet_meas), lintegral_indicator_const hiSet_meas,
    lintegral_indicator_const loSet_meas, Measure.restrict_apply hiSet_meas, Measure.restrict_apply loSet_meas]

theorem exP_density : IsDensity exP := by
  refine ⟨?_, ?_, ?_⟩
  · exact (measurable_const.indicator hiSet_meas).add (measurable_const.indicator loSet_meas)
  · intro x
    unfold exP
    exact add_nonneg (indicator_nonneg (fun _ _ => by norm_num) _) (indicator_nonneg (fun _ _ => by norm_num) _)
  · have := lintegral_two univ (fun x => ENNReal.ofReal (exP x)) (ENNReal.ofReal (2/3)) (ENNReal.ofReal (1/3))
      MeasurableSet.univ (fun x h => by rw [exP_hi h]) (fun x h => by rw [exP_lo h]) (fun x h h' => by rw [exP_out h h']; simp)
    rw [Measure.restrict_univ] at this
    rw [this, inter_univ, inter_univ, hiSet_vol, loSet_vol, mul_one, mul_one, ← ENNReal.ofReal_add (by norm_num) (by norm_num)]
    norm_num

theorem exQ_density : IsDensity exQ := by
  have hm : MeasurableSet (Set.pi univ fun _ => Icc (-3) 3 : Set (Fin 1 → ℝ)) := MeasurableSet.univ_pi fun _ => measurableSet_Icc
  refine ⟨measurable_const.indicator hm, fun x => indicator_nonneg (fun _ _ => by norm_num) _, ?_⟩
  have : (fun z => ENNReal.ofReal (exQ z)) =
      (Set.pi univ fun _ => Icc (-3) 3 : Set (Fin 1 → ℝ)).indicator fun _ => ENNReal.ofReal (1/6) := by
    funext z
    unfold exQ
    by_cases h : z ∈ (Set.pi univ fun _ => Icc (-3) 3 : Set (Fin 1 → ℝ))
    · rw [indicator_of_mem h, indicator_of_mem h]
    · rw [indicator_of_notMem h, indicator_of_notMem h, ENNReal.ofReal_zero]
  rw [this, lintegral_indicator_const hm, volume_pi_pi]
  simp only [Real.volume_Icc, Finset.univ_unique, Finset.prod_singleton]
  rw [← ENNReal.ofReal_mul (by norm_num)]
  norm_num

theorem ex_inside (x : Fin 1 → ℝ) (h : 0 < exP x) (i : Fin 1) : (![-1] : Fin 1 → ℝ) i < x i ∧ x i < (![3] : Fin 1 → ℝ) i := by
  have hx : x ∈ hiSet ∪ loSet := by
    by_contra hc
    simp only [mem_union, not_or] at hc
    rw [exP_out hc.1 hc.2] at h
    exact lt_irrefl _ h
  have := mem_Icc02 hx
  rw [Subsingleton.elim i 0]
  simp only [Matrix.cons_val_zero]
  constructor <;> linarith [this.1, this.2]

/-- The accepted flow from a point of the support. -/
theorem ex_mass {x : Fin 1 → ℝ} (hx : x ∈ hiSet ∪ loSet) {B : Set (Fin 1 → ℝ)} (hB : MeasurableSet B) :
    ENNReal.ofReal (exP x) * acceptProb (densCfg ![-1] ![3] exP exQ) exQ x B =
      ENNReal.ofReal (exP x / 6) * volume (hiSet ∩ B) + ENNReal.ofReal (1 / 18) * volume (loSet ∩ B) := by
  have hpx : exP x = 2/3 ∨ exP x = 1/3 := by
    rcases hx with h | h
    · left; exact exP_hi h
    · right; exact exP_lo h
  rw [mass_eq exP_density exQ_density ex_inside x hB]
  refine lintegral_two B _ _ _ hB ?_ ?_ ?_
  · intro y hy
    rw [flow, exQ_near hx (Or.inl hy), exQ_near (Or.inl hy) hx, exP_hi hy]
    congr 1
    rw [min_eq_left]
    · ring
    · rcases hpx with h | h <;> rw [h] <;> norm_num
  · intro y hy
    rw [flow, exQ_near hx (Or.inr hy), exQ_near (Or.inr hy) hx, exP_lo hy]
    congr 1
    rw [min_eq_right]
    · norm_num
    · rcases hpx with h | h <;> rw [h] <;> norm_num
  · intro y h h'
    rw [flow, exP_out h h', zero_mul, min_eq_right, ENNReal.ofReal_zero]
    exact mul_nonneg (exP_density.nonneg x) (exQ_density.nonneg _)

theorem lo_inter_hi : volume (hiSet ∩ loSet) = 0 := by
  rw [Set.disjoint_iff_inter_eq_empty.1 hilo_disj, measure_empty]

theorem ex_ratio {x : Fin 1 → ℝ} (hx : x ∈ hiSet ∪ loSet) :
    stepProb (densCfg ![-1] ![3] exP exQ) exQ (init 0) x loSet =
      ENNReal.ofReal (1 / 18 / (exP x / 6 + 1 / 18)) := by
  have hpos : 0 < exP x := by
    rcases hx with h | h
    · rw [exP_hi h]; norm_num
    · rw [exP_lo h]; norm_num
  have h0 : ENNReal.ofReal (exP x) ≠ 0 := by simpa using hpos
  rw [stepProb_eq exP_density exQ_density _ _ loSet_meas,
    ← ENNReal.mul_div_mul_left _ _ h0 ENNReal.ofReal_ne_top, ex_mass hx loSet_meas, ex_mass hx MeasurableSet.univ, lo_inter_hi,
    inter_self, inter_univ, inter_univ, hiSet_vol, loSet_vol, mul_zero, mul_one, mul_one, zero_add,
    ← ENNReal.ofReal_add (by positivity) (by norm_num),
    ← ENNReal.ofReal_div_of_pos (y := exP x / 6 + 1 / 18) (by positivity)]

/-- **C48** is violated: there are a target and a proposal for which a step of the chain does not leave the target
invariant. The target vanishes on the border of the search space. -/
theorem C48_refuted : ∃ (lo hi : Fin 1 → ℝ) (p q : (Fin 1 → ℝ) → ℝ) (B : Set (Fin 1 → ℝ)), IsDensity p ∧ IsDensity q ∧
    (∀ x, 0 < p x → ∀ i, lo i < x i ∧ x i < hi i) ∧ MeasurableSet B ∧
    ∫⁻ x, ENNReal.ofReal (p x) * stepProb (densCfg lo hi p q) q (init 0) x B ≠ ∫⁻ x in B, ENNReal.ofReal (p x) := by
  refine ⟨![-1], ![3], exP, exQ, loSet, exP_density, exQ_density, ex_inside, loSet_meas, ?_⟩
  have h1 := lintegral_two univ (fun x => ENNReal.ofReal (exP x) * stepProb (densCfg ![-1] ![3] exP exQ) exQ (init 0) x loSet)
    (ENNReal.ofReal (2/9)) (ENNReal.ofReal (1/6)) MeasurableSet.univ
    (fun x h => by
      rw [ex_ratio (Or.inl h), exP_hi h, ← ENNReal.ofReal_mul (by norm_num)]
      congr 1; norm_num)
    (fun x h => by
      rw [ex_ratio (Or.inr h), exP_lo h, ← ENNReal.ofReal_mul (by norm_num)]
      congr 1; norm_num)
    (fun x h h' => by rw [exP_out h h', ENNReal.ofReal_zero, zero_mul])
  rw [Measure.restrict_univ, inter_univ, inter_univ, hiSet_vol, loSet_vol, mul_one, mul_one,
    ← ENNReal.ofReal_add (by norm_num) (by norm_num)] at h1
  have h2 := lintegral_two loSet (fun x => ENNReal.ofReal (exP x)) (ENNReal.ofReal (2/3)) (ENNReal.ofReal (1/3))
      loSet_meas (fun x h => by rw [exP_hi h]) (fun x h => by rw [exP_lo h]) (fun x h h' => by rw [exP_out h h']; simp)
  rw [lo_inter_hi, inter_self, loSet_vol, mul_zero, mul_one, zero_add] at h2
  rw [h1, h2, Ne, ENNReal.ofReal_eq_ofReal_iff (by norm_num) (by norm_num)]
  norm_num

end MHast
end Verif
