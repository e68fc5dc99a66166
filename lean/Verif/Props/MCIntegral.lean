import Verif.Model.MCIntegral
import Verif.Props.TPUnbiased
import Mathlib.MeasureTheory.Measure.Lebesgue.Basic

/-!
# Property C75: the default Monte Carlo integral
-/

set_option linter.unusedSectionVars false
set_option autoImplicit false

namespace Verif
namespace MCInt

open MeasureTheory Set

variable {d n : ℕ}

/-! ### Specification -/

/-- The box between `a` and `b`. -/
def box (a b : Fin d → ℝ) : Set (Fin d → ℝ) := Set.univ.pi fun k => Ico (a k) (b k)

/-- Law of the random numbers of one call: `n` independent points of the unit cube and `n` independent numbers in
`[0, 1)`. -/
noncomputable def drawLaw (d n : ℕ) : Measure ((Fin n → Fin d → ℝ) × (Fin n → ℝ)) :=
  (Measure.pi fun _ => uniformDraw d).prod (Measure.pi fun _ => (volume : Measure ℝ).restrict (Ico 0 1))

/-! ### Proof -/

/-- The maximum of the densities at the points drawn. -/
noncomputable def height (hn : 0 < n) (p : (Fin d → ℝ) → ℝ) (a b : Fin d → ℝ) (u : Fin n → Fin d → ℝ) : ℝ :=
  Finset.univ.sup' (⟨⟨0, hn⟩, Finset.mem_univ _⟩ : (Finset.univ : Finset (Fin n)).Nonempty) fun i => p (points a b u i)

theorem integral_eq (hn : 0 < n) (p : (Fin d → ℝ) → ℝ) (a b : Fin d → ℝ) (u : Fin n → Fin d → ℝ) (v : Fin n → ℝ) :
    integral p a b u v = .ok ((∑ i, if height hn p a b u * v i ≤ p (points a b u i) then (1 : ℝ) else 0) / n *
      ((∏ k, (b k - a k)) * height hn p a b u)) := by
  unfold integral
  rw [dif_pos hn]
  simp only [npUniform, zero_add, sub_zero, Finset.card_filter, Nat.cast_sum, Nat.cast_ite, Nat.cast_one, Nat.cast_zero]
  rfl

theorem le_height (hn : 0 < n) (p : (Fin d → ℝ) → ℝ) (a b : Fin d → ℝ) (u : Fin n → Fin d → ℝ) (i : Fin n) :
    p (points a b u i) ≤ height hn p a b u :=
  Finset.le_sup' (fun i => p (points a b u i)) (Finset.mem_univ i)

/-- **C75**, every outcome: with a density between `lo` and `hi` on the box and at least one sample the result is between 0
and `hi` times the volume of the box; if the density is constant on the box the result is exact whatever the random
numbers are. -/
theorem C75_bounds (hn : 0 < n) (p : (Fin d → ℝ) → ℝ) (a b : Fin d → ℝ) (hab : ∀ k, a k < b k) (u : Fin n → Fin d → ℝ)
    (v : Fin n → ℝ) (hu : ∀ i k, 0 ≤ u i k ∧ u i k < 1) (hv : ∀ i, 0 ≤ v i ∧ v i < 1) :
    ∃ r, integral p a b u v = .ok r ∧
      (∀ hi, (∀ x ∈ box a b, 0 ≤ p x ∧ p x ≤ hi) → 0 ≤ r ∧ r ≤ hi * ∏ k, (b k - a k)) ∧
      (∀ c, 0 ≤ c → (∀ x ∈ box a b, p x = c) → r = c * ∏ k, (b k - a k)) := by
  have hin : ∀ i, points a b u i ∈ box a b := by
    intro i k _
    have h1 := hab k
    have h2 := hu i k
    simp only [points, npUniform, mem_Ico]
    constructor <;> nlinarith
  have hvol : 0 ≤ ∏ k, (b k - a k) := Finset.prod_nonneg fun k _ => (sub_pos.2 (hab k)).le
  have hn' : (0 : ℝ) < n := by exact_mod_cast hn
  refine ⟨_, integral_eq hn p a b u v, ?_, ?_⟩
  · intro hi hp
    set H := height hn p a b u with hH
    have h0 : 0 ≤ H := ((hp _ (hin ⟨0, hn⟩)).1).trans (le_height hn p a b u ⟨0, hn⟩)
    have h1 : H ≤ hi := Finset.sup'_le _ _ fun i _ => (hp _ (hin i)).2
    have hs0 : 0 ≤ ∑ i, (if H * v i ≤ p (points a b u i) then (1 : ℝ) else 0) :=
      Finset.sum_nonneg fun i _ => by split <;> norm_num
    have hs1 : ∑ i : Fin n, (if H * v i ≤ p (points a b u i) then (1 : ℝ) else 0) ≤ n := by
      refine (Finset.sum_le_sum (g := fun _ => (1 : ℝ)) fun i _ => by split <;> norm_num).trans ?_
      simp
    constructor
    · positivity
    · have h2 : (∑ i : Fin n, (if H * v i ≤ p (points a b u i) then (1 : ℝ) else 0)) / n ≤ 1 := (div_le_one hn').2 hs1
      calc _ ≤ 1 * ((∏ k, (b k - a k)) * H) := mul_le_mul_of_nonneg_right h2 (by positivity)
        _ ≤ hi * ∏ k, (b k - a k) := by
          rw [one_mul, mul_comm]
          exact mul_le_mul_of_nonneg_right h1 hvol
  · intro c hc hp
    have hH : height hn p a b u = c := by
      unfold height
      refine le_antisymm (Finset.sup'_le _ _ fun i _ => (hp _ (hin i)).le) ?_
      have := le_height hn p a b u ⟨0, hn⟩
      rwa [hp _ (hin _)] at this
    rw [hH]
    have : ∀ i, (if c * v i ≤ p (points a b u i) then (1 : ℝ) else 0) = 1 := by
      intro i
      rw [if_pos]
      rw [hp _ (hin i)]
      have := hv i
      nlinarith
    simp only [this, Finset.sum_const, Finset.card_univ, Fintype.card_fin, nsmul_eq_mul, mul_one]
    rw [div_self hn'.ne', one_mul, mul_comm]

/-- Change of variables from the unit cube to the box. -/
theorem lintegral_box (a b : Fin d → ℝ) (hab : ∀ k, a k < b k) (f : (Fin d → ℝ) → ENNReal) (hf : Measurable f) :
    ENNReal.ofReal (∏ k, (b k - a k)) * ∫⁻ u, f (fun k => npUniform (a k) (b k) (u k)) ∂(uniformDraw d) =
      ∫⁻ x in box a b, f x := by
  have hpos : 0 < ∏ k, (b k - a k) := Finset.prod_pos fun k _ => sub_pos.2 (hab k)
  set M : Matrix (Fin d) (Fin d) ℝ := Matrix.diagonal fun k => b k - a k with hM
  have hdet : M.det ≠ 0 := by rw [hM, Matrix.det_diagonal]; exact hpos.ne'
  have hmap := Real.map_matrix_volume_pi_eq_smul_volume_pi hdet
  have hbox : MeasurableSet (box a b) := MeasurableSet.univ_pi fun _ => measurableSet_Ico
  have hlin : ∀ u : Fin d → ℝ, (fun k => npUniform (a k) (b k) (u k)) = a + Matrix.toLin' M u := by
    intro u
    funext k
    simp [npUniform, hM, Matrix.toLin'_apply, Matrix.mulVec_diagonal]
  have hcube : ∀ u : Fin d → ℝ, u ∈ unitCube d ↔ a + Matrix.toLin' M u ∈ box a b := by
    intro u
    rw [← hlin]
    simp only [unitCube, box, mem_pi, mem_univ, true_imp_iff, mem_Ico, npUniform]
    refine forall_congr' fun k => ?_
    have := sub_pos.2 (hab k)
    constructor
    · rintro ⟨h1, h2⟩
      constructor <;> nlinarith
    · rintro ⟨h1, h2⟩
      constructor
      · by_contra h
        nlinarith [mul_pos this (neg_pos.2 (not_le.1 h))]
      · by_contra h
        nlinarith [mul_nonneg this.le (sub_nonneg.2 (not_lt.1 h))]
  set g : (Fin d → ℝ) → ENNReal := fun y => (box a b).indicator f (a + y) with hg
  have hgm : Measurable g := (hf.indicator hbox).comp (measurable_const_add a)
  have hL : Measurable (Matrix.toLin' M) := (LinearMap.continuous_on_pi _).measurable
  have h1 : ∫⁻ u, f (fun k => npUniform (a k) (b k) (u k)) ∂(uniformDraw d) = ∫⁻ u, g (Matrix.toLin' M u) := by
    unfold uniformDraw
    rw [← lintegral_indicator measurableSet_unitCube]
    refine lintegral_congr fun u => ?_
    by_cases hu : u ∈ unitCube d
    · rw [indicator_of_mem hu, hlin]
      simp only [hg]
      rw [indicator_of_mem ((hcube u).1 hu)]
    · rw [indicator_of_notMem hu]
      simp only [hg]
      rw [indicator_of_notMem fun h => hu ((hcube u).2 h)]
  rw [h1, ← lintegral_map hgm hL, hmap, lintegral_smul_measure]
  have h2 : ∫⁻ y, g y = ∫⁻ x in box a b, f x := by
    simp only [hg]
    rw [lintegral_add_left_eq_self (fun x => (box a b).indicator f x) a, lintegral_indicator hbox]
  rw [h2, smul_eq_mul, ← mul_assoc, hM, Matrix.det_diagonal, abs_of_pos (inv_pos.2 hpos),
    ← ENNReal.ofReal_mul hpos.le, mul_inv_cancel₀ hpos.ne', ENNReal.ofReal_one, one_mul]

/-- Probability that a point under the height is below the density. -/
theorem below_volume {H q : ℝ} (hq : 0 ≤ q) (hqH : q ≤ H) :
    ENNReal.ofReal H * (volume.restrict (Ico (0 : ℝ) 1)) {v | H * v ≤ q} = ENNReal.ofReal q := by
  rcases (hq.trans hqH).eq_or_lt with h0 | h0
  · rw [← h0] at hqH ⊢
    rw [le_antisymm hqH hq]
    simp
  · have hms : MeasurableSet {v : ℝ | H * v ≤ q} := measurableSet_le (by fun_prop) measurable_const
    rw [Measure.restrict_apply hms]
    have hle : q / H ≤ 1 := (div_le_one h0).2 hqH
    have hv : volume ({v : ℝ | H * v ≤ q} ∩ Ico 0 1) = ENNReal.ofReal (q / H) := by
      apply le_antisymm
      · refine (measure_mono (t := Icc 0 (q / H)) ?_).trans (by rw [Real.volume_Icc, sub_zero])
        rintro v ⟨h1, h2, -⟩
        exact ⟨h2, by rw [le_div_iff₀ h0, mul_comm]; exact h1⟩
      · refine le_trans (by rw [Real.volume_Ico, sub_zero]) (measure_mono (s := Ico 0 (q / H)) ?_)
        rintro v ⟨h1, h2⟩
        refine ⟨?_, h1, h2.trans_le hle⟩
        rw [lt_div_iff₀ h0, mul_comm] at h2
        exact h2.le
    rw [hv, ← ENNReal.ofReal_mul h0.le, mul_div_cancel₀ _ h0.ne']

instance : IsProbabilityMeasure ((volume : Measure ℝ).restrict (Ico 0 1)) := ⟨by simp⟩

theorem points_measurable (a b : Fin d → ℝ) (i : Fin n) : Measurable fun u : Fin n → Fin d → ℝ => points a b u i := by
  unfold points npUniform
  refine measurable_pi_lambda _ fun k => ?_
  have : Measurable fun u : Fin n → Fin d → ℝ => u i k := (measurable_pi_apply k).comp (measurable_pi_apply i)
  fun_prop

theorem height_measurable (hn : 0 < n) {p : (Fin d → ℝ) → ℝ} (hp : Measurable p) (a b : Fin d → ℝ) :
    Measurable (height hn p a b) := by
  have : height hn p a b = Finset.univ.sup' (⟨⟨0, hn⟩, Finset.mem_univ _⟩ : (Finset.univ : Finset (Fin n)).Nonempty)
      fun i u => p (points a b u i) := by
    funext u
    exact (Finset.sup'_apply (C := fun _ : Fin n → Fin d → ℝ => ℝ) _ (fun i u => p (points a b u i)) u).symm
  rw [this]
  exact Finset.measurable_sup' _ fun i _ => hp.comp (points_measurable a b i)

/-- The number returned. -/
noncomputable def est (hn : 0 < n) (p : (Fin d → ℝ) → ℝ) (a b : Fin d → ℝ) (ω : (Fin n → Fin d → ℝ) × (Fin n → ℝ)) : ℝ :=
  (∑ i, if height hn p a b ω.1 * ω.2 i ≤ p (points a b ω.1 i) then (1 : ℝ) else 0) / n *
      ((∏ k, (b k - a k)) * height hn p a b ω.1)

theorem inlier_measurable (hn : 0 < n) {p : (Fin d → ℝ) → ℝ} (hp : Measurable p) (a b : Fin d → ℝ) (i : Fin n) :
    MeasurableSet {ω : (Fin n → Fin d → ℝ) × (Fin n → ℝ) | height hn p a b ω.1 * ω.2 i ≤ p (points a b ω.1 i)} :=
  measurableSet_le (((height_measurable hn hp a b).comp measurable_fst).mul ((measurable_pi_apply i).comp measurable_snd))
    ((hp.comp (points_measurable a b i)).comp measurable_fst)

theorem est_measurable (hn : 0 < n) {p : (Fin d → ℝ) → ℝ} (hp : Measurable p) (a b : Fin d → ℝ) :
    Measurable (est hn p a b) := by
  unfold est
  refine Measurable.mul (Measurable.div_const (Finset.measurable_sum _ fun i _ => ?_) _)
    (((height_measurable hn hp a b).comp measurable_fst).const_mul _)
  exact Measurable.ite (inlier_measurable hn hp a b i) measurable_const measurable_const

/-- **C75**, unbiasedness: for every non-negative measurable density, every box and every positive number of samples, the
expected value of what `integral(a, b, nsamples)` returns is the integral of the density over the box. -/
theorem C75_unbiased (hn : 0 < n) (p : (Fin d → ℝ) → ℝ) (hp : Measurable p) (h0 : ∀ x, 0 ≤ p x) (a b : Fin d → ℝ)
    (hab : ∀ k, a k < b k) :
    ∃ r : (Fin n → Fin d → ℝ) × (Fin n → ℝ) → ℝ, (∀ ω, integral p a b ω.1 ω.2 = .ok (r ω)) ∧ Measurable r ∧
      (∀ ω, 0 ≤ r ω) ∧ ∫⁻ ω, ENNReal.ofReal (r ω) ∂(drawLaw d n) = ∫⁻ x in box a b, ENNReal.ofReal (p x) ∧
      (IntegrableOn p (box a b) → ∫ ω, r ω ∂(drawLaw d n) = ∫ x in box a b, p x) := by
  have hvol : 0 < ∏ k, (b k - a k) := Finset.prod_pos fun k _ => sub_pos.2 (hab k)
  have hn' : (0 : ℝ) < n := by exact_mod_cast hn
  have hH : ∀ u, 0 ≤ height hn p a b u := fun u => (h0 _).trans (le_height hn p a b u ⟨0, hn⟩)
  have hr0 : ∀ ω, 0 ≤ est hn p a b ω := fun ω => by
    have : 0 ≤ ∑ i, (if height hn p a b ω.1 * ω.2 i ≤ p (points a b ω.1 i) then (1 : ℝ) else 0) :=
      Finset.sum_nonneg fun i _ => by split <;> norm_num
    have := hH ω.1
    unfold est
    positivity
  have hmeas := est_measurable hn hp a b
  set V := ∏ k, (b k - a k) with hV
  -- expectation over the second generator call
  have hin : ∀ u : Fin n → Fin d → ℝ, ∫⁻ v, ENNReal.ofReal (est hn p a b (u, v))
      ∂(Measure.pi fun _ : Fin n => (volume : Measure ℝ).restrict (Ico 0 1)) =
      ∑ i, ENNReal.ofReal (V / n) * ENNReal.ofReal (p (points a b u i)) := by
    intro u
    set H := height hn p a b u with hHd
    have hms : ∀ i, MeasurableSet {v : ℝ | H * v ≤ p (points a b u i)} := fun i =>
      measurableSet_le (by fun_prop) measurable_const
    have e : ∀ v : Fin n → ℝ, ENNReal.ofReal (est hn p a b (u, v)) =
        ∑ i, ENNReal.ofReal (V / n) * ENNReal.ofReal H * {v : ℝ | H * v ≤ p (points a b u i)}.indicator 1 (v i) := by
      intro v
      unfold est
      simp only [← hV, ← hHd]
      rw [show ∀ s : ℝ, s / n * (V * H) = s * (V / n * H) by intro s; ring, ENNReal.ofReal_mul'
        (mul_nonneg (div_nonneg hvol.le hn'.le) (hH u)), ENNReal.ofReal_sum_of_nonneg fun i _ => by split <;> norm_num,
        Finset.sum_mul]
      refine Finset.sum_congr rfl fun i _ => ?_
      rw [ENNReal.ofReal_mul (div_nonneg hvol.le hn'.le), mul_comm]
      congr 1
      by_cases hc : H * v i ≤ p (points a b u i)
      · rw [if_pos hc, indicator_of_mem (by exact hc)]
        simp
      · rw [if_neg hc, indicator_of_notMem (by exact hc)]
        simp
    have hmi : ∀ i, Measurable fun v : Fin n → ℝ =>
        ENNReal.ofReal (V / n) * ENNReal.ofReal H * {v : ℝ | H * v ≤ p (points a b u i)}.indicator (1 : ℝ → ENNReal) (v i) :=
      fun i => (((measurable_const (a := (1 : ENNReal))).indicator (hms i)).comp (measurable_pi_apply i)).const_mul _
    simp only [e]
    rw [lintegral_finset_sum _ fun i _ => hmi i]
    refine Finset.sum_congr rfl fun i _ => ?_
    have h1 : Measurable ({v : ℝ | H * v ≤ p (points a b u i)}.indicator (1 : ℝ → ENNReal)) :=
      (measurable_const (a := (1 : ENNReal))).indicator (hms i)
    have h2 : Measurable fun v : Fin n → ℝ => {v : ℝ | H * v ≤ p (points a b u i)}.indicator (1 : ℝ → ENNReal) (v i) :=
      h1.comp (measurable_pi_apply i)
    rw [lintegral_const_mul _ h2]
    rw [(measurePreserving_eval (fun _ : Fin n => (volume : Measure ℝ).restrict (Ico 0 1)) i).lintegral_comp h1]
    rw [lintegral_indicator_one (hms i), mul_assoc, below_volume (h0 _) (le_height hn p a b u i)]
  have hexp : ∫⁻ ω, ENNReal.ofReal (est hn p a b ω) ∂(drawLaw d n) = ∫⁻ x in box a b, ENNReal.ofReal (p x) := by
    unfold drawLaw
    rw [lintegral_prod _ hmeas.ennreal_ofReal.aemeasurable]
    simp only [hin]
    have hpm : Measurable fun x => ENNReal.ofReal (p x) := hp.ennreal_ofReal
    have h1 : ∀ i, Measurable fun u : Fin n → Fin d → ℝ => ENNReal.ofReal (p (points a b u i)) :=
      fun i => hpm.comp (points_measurable a b i)
    rw [lintegral_finset_sum _ fun i _ => (h1 i).const_mul _]
    have h2 : ∀ i : Fin n, ∫⁻ u, ENNReal.ofReal (V / n) * ENNReal.ofReal (p (points a b u i))
        ∂(Measure.pi fun _ : Fin n => uniformDraw d) = ENNReal.ofReal (1 / n) * ∫⁻ x in box a b, ENNReal.ofReal (p x) := by
      intro i
      rw [lintegral_const_mul _ (h1 i)]
      have hf : Measurable fun w : Fin d → ℝ => ENNReal.ofReal (p fun k => npUniform (a k) (b k) (w k)) := by
        refine hpm.comp (measurable_pi_lambda _ fun k => ?_)
        unfold npUniform
        have := measurable_pi_apply (X := fun _ : Fin d => ℝ) k
        fun_prop
      have := (measurePreserving_eval (fun _ : Fin n => uniformDraw d) i).lintegral_comp hf
      rw [show (fun u : Fin n → Fin d → ℝ => ENNReal.ofReal (p (points a b u i))) =
        fun u => (fun w : Fin d → ℝ => ENNReal.ofReal (p fun k => npUniform (a k) (b k) (w k))) (Function.eval i u) from rfl, this,
        ← lintegral_box a b hab _ hpm, ← mul_assoc, ← ENNReal.ofReal_mul (by positivity)]
      congr 2
      ring
    simp only [h2, Finset.sum_const, Finset.card_univ, Fintype.card_fin, nsmul_eq_mul]
    rw [← mul_assoc, ← ENNReal.ofReal_natCast, ← ENNReal.ofReal_mul hn'.le, mul_one_div_cancel hn'.ne', ENNReal.ofReal_one,
      one_mul]
  refine ⟨est hn p a b, fun ω => integral_eq hn p a b ω.1 ω.2, hmeas, hr0, hexp, ?_⟩
  intro _
  rw [integral_eq_lintegral_of_nonneg_ae (.of_forall hr0) hmeas.aestronglyMeasurable,
    integral_eq_lintegral_of_nonneg_ae (.of_forall h0) hp.aestronglyMeasurable, hexp]

/-- Without samples the call raises ValueError. -/
theorem C75_no_samples (p : (Fin d → ℝ) → ℝ) (a b : Fin d → ℝ) (u : Fin 0 → Fin d → ℝ) (v : Fin 0 → ℝ) :
    integral p a b u v = .error .value := rfl

/-- A case that meets the hypotheses: two samples of the density `1 + x` on `[0, 2)`; both numbers `v` are below, the
estimate is the volume under the larger value. -/
example : integral (fun x : Fin 1 → ℝ => 1 + x 0) ![0] ![2] ![![0], ![1/2]] ![1/2, 0] = .ok 4 := by
  have hp : ∀ i, points ![(0:ℝ)] ![2] ![![0], ![1/2]] i 0 = if i = 0 then 0 else 1 := by
    intro i
    fin_cases i <;> simp [points, npUniform]
  have hh : height (n := 2) two_pos (fun x : Fin 1 → ℝ => 1 + x 0) ![0] ![2] ![![0], ![1/2]] = 2 := by
    unfold height
    apply le_antisymm
    · refine Finset.sup'_le _ _ fun i _ => ?_
      show 1 + points ![(0:ℝ)] ![2] ![![0], ![1/2]] i 0 ≤ 2
      rw [hp]
      split <;> norm_num
    · have := le_height (n := 2) two_pos (fun x : Fin 1 → ℝ => 1 + x 0) ![0] ![2] ![![0], ![1/2]] 1
      rw [hp] at this
      unfold height at this
      norm_num at this ⊢
      exact this
  rw [integral_eq two_pos, hh]
  simp only [hp]
  rw [Fin.sum_univ_two]
  norm_num

/-- A case that meets the hypotheses of `C75_unbiased`: three samples, two dimensions. -/
example : ∃ r : (Fin 3 → Fin 2 → ℝ) × (Fin 3 → ℝ) → ℝ,
    (∀ ω, integral (fun x : Fin 2 → ℝ => |x 0|) ![-1, 0] ![2, 5] ω.1 ω.2 = .ok (r ω)) ∧
      ∫⁻ ω, ENNReal.ofReal (r ω) ∂(drawLaw 2 3) = ∫⁻ x in box ![-1, 0] ![2, 5], ENNReal.ofReal |x 0| := by
  obtain ⟨r, h1, _, _, h2, _⟩ := C75_unbiased (n := 3) three_pos (fun x : Fin 2 → ℝ => |x 0|)
    (measurable_norm.comp (measurable_pi_apply 0)) (fun _ => abs_nonneg _) ![-1, 0] ![2, 5] (by intro k; fin_cases k <;> norm_num)
  exact ⟨r, h1, h2⟩

end MCInt
end Verif
