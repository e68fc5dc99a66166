import Verif.Proof.Convergence

/-!
# C114: the default Monte Carlo integral converges
-/

set_option linter.unusedSectionVars false
set_option autoImplicit false

namespace Verif
namespace MCInt

open MeasureTheory Set Filter Topology MetricCompute

variable {d : ℕ}

/-- Law of the random numbers of calls with more and more samples: for each sample a point of the unit cube and a number in
`[0, 1)`, all independent. -/
noncomputable def pairStream (d : ℕ) : Measure (ℕ → (Fin d → ℝ) × ℝ) :=
  Measure.infinitePi fun _ => (uniformDraw d).prod ((volume : Measure ℝ).restrict (Ico 0 1))

/-- The smallest number that bounds the density almost everywhere in the box. -/
noncomputable def ceiling (p : (Fin d → ℝ) → ℝ) (a b : Fin d → ℝ) : ℝ :=
  sInf {h | 0 ≤ h ∧ ∀ᵐ x ∂(volume.restrict (box a b)), p x ≤ h}

section
variable {p : (Fin d → ℝ) → ℝ} {a b : Fin d → ℝ}

theorem ceiling_spec {M : ℝ} (hM : 0 ≤ M) (hp : ∀ x ∈ box a b, p x ≤ M) :
    0 ≤ ceiling p a b ∧ (∀ᵐ x ∂(volume.restrict (box a b)), p x ≤ ceiling p a b) ∧
      ∀ h, 0 ≤ h → h < ceiling p a b → volume (box a b ∩ {x | h < p x}) ≠ 0 := by
  have hb : MeasurableSet (box a b) := measurableSet_box a b
  have hne : {h | 0 ≤ h ∧ ∀ᵐ x ∂(volume.restrict (box a b)), p x ≤ h}.Nonempty :=
    ⟨M, hM, (ae_restrict_iff' hb).2 (Eventually.of_forall hp)⟩
  have hbd : BddBelow {h | 0 ≤ h ∧ ∀ᵐ x ∂(volume.restrict (box a b)), p x ≤ h} := ⟨0, fun h hh => hh.1⟩
  refine ⟨le_csInf hne fun h hh => hh.1, ?_, ?_⟩
  · have : ∀ k : ℕ, ∀ᵐ x ∂(volume.restrict (box a b)), p x ≤ ceiling p a b + 1 / ((k : ℝ) + 1) := by
      intro k
      have hk : ceiling p a b < ceiling p a b + 1 / ((k : ℝ) + 1) := by
        have : 0 < 1 / ((k : ℝ) + 1) := by positivity
        linarith
      obtain ⟨h, hh, hlt⟩ := exists_lt_of_csInf_lt hne hk
      filter_upwards [hh.2] with x hx
      linarith
    filter_upwards [ae_all_iff.2 this] with x hx
    refine le_of_forall_pos_lt_add fun ε hε => ?_
    obtain ⟨k, hk⟩ := exists_nat_one_div_lt hε
    have := hx k
    linarith
  · intro h h0 hlt hzero
    refine absurd (csInf_le hbd ⟨h0, ?_⟩) (not_le.2 hlt)
    rw [ae_restrict_iff' hb, ae_iff]
    refine measure_mono_null ?_ hzero
    intro x hx
    simp only [mem_setOf_eq, Classical.not_imp, not_le] at hx
    exact hx

/-- Fraction of the first `n` samples below the density when the height is `h`. -/
noncomputable def frac (p : (Fin d → ℝ) → ℝ) (a b : Fin d → ℝ) (h : ℝ) (ω : ℕ → (Fin d → ℝ) × ℝ) (n : ℕ) : ℝ :=
  (∑ k ∈ Finset.range n, if h * (ω k).2 ≤ p (pt a b (ω k).1) then (1 : ℝ) else 0) / n

theorem frac_mono {h h' : ℝ} (hh : h ≤ h') {ω : ℕ → (Fin d → ℝ) × ℝ} (hω : ∀ k, 0 ≤ (ω k).2) (n : ℕ) :
    frac p a b h' ω n ≤ frac p a b h ω n := by
  unfold frac
  refine div_le_div_of_nonneg_right (Finset.sum_le_sum fun k _ => ?_) (Nat.cast_nonneg n)
  by_cases h1 : h' * (ω k).2 ≤ p (pt a b (ω k).1)
  · rw [if_pos h1, if_pos ((mul_le_mul_of_nonneg_right hh (hω k)).trans h1)]
  · rw [if_neg h1]
    split_ifs <;> norm_num

theorem frac_nonneg (h : ℝ) (ω : ℕ → (Fin d → ℝ) × ℝ) (n : ℕ) : 0 ≤ frac p a b h ω n :=
  div_nonneg (Finset.sum_nonneg fun k _ => by split_ifs <;> norm_num) (Nat.cast_nonneg n)

/-- Probability that a sample is below the density when the height is `h`. -/
noncomputable def below (p : (Fin d → ℝ) → ℝ) (a b : Fin d → ℝ) (h : ℝ) : ℝ :=
  ∫ w, (if h * w.2 ≤ p (pt a b w.1) then (1 : ℝ) else 0) ∂((uniformDraw d).prod ((volume : Measure ℝ).restrict (Ico 0 1)))

theorem below_measurable (hp : Measurable p) (h : ℝ) :
    Measurable fun w : (Fin d → ℝ) × ℝ => if h * w.2 ≤ p (pt a b w.1) then (1 : ℝ) else 0 :=
  Measurable.ite (measurableSet_le (measurable_snd.const_mul h) (hp.comp ((pt_measurable a b).comp measurable_fst)))
    measurable_const measurable_const

theorem below_integrable (hp : Measurable p) (h : ℝ) :
    Integrable (fun w : (Fin d → ℝ) × ℝ => if h * w.2 ≤ p (pt a b w.1) then (1 : ℝ) else 0)
      ((uniformDraw d).prod ((volume : Measure ℝ).restrict (Ico 0 1))) :=
  Integrable.of_bound (C := 1) (below_measurable hp h).aestronglyMeasurable
    (Eventually.of_forall fun w => by split_ifs <;> norm_num)

theorem frac_tendsto (hp : Measurable p) (h : ℝ) :
    ∀ᵐ ω ∂(pairStream d), Tendsto (frac p a b h ω) atTop (𝓝 (below p a b h)) :=
  slln_iid _ _ (below_measurable hp h) (below_integrable hp h)

theorem below_le (hab : ∀ k, a k < b k) (hp : Measurable p) (h0 : ∀ x, 0 ≤ p x) (hi : IntegrableOn p (box a b)) {h : ℝ}
    (hh : 0 < h) : below p a b h ≤ (∫ x in box a b, p x) / vol a b / h := by
  obtain ⟨h1, h2⟩ := integral_pt a b hab p hp hi
  unfold below
  rw [integral_prod _ (below_integrable hp h), ← h2, div_eq_mul_inv, ← integral_mul_const]
  refine integral_mono (below_integrable hp h).integral_prod_left (h1.mul_const _) fun u => ?_
  have hms : MeasurableSet {v : ℝ | h * v ≤ p (pt a b u)} := measurableSet_le (by fun_prop) measurable_const
  have e : ∫ v, (if h * v ≤ p (pt a b u) then (1 : ℝ) else 0) ∂((volume : Measure ℝ).restrict (Ico 0 1)) =
      ((volume : Measure ℝ).restrict (Ico 0 1)).real {v | h * v ≤ p (pt a b u)} := by
    rw [← integral_indicator_one hms]
    rfl
  simp only
  rw [e, ← div_eq_mul_inv]
  rcases le_total (p (pt a b u)) h with hle | hle
  · have := below_volume (h0 (pt a b u)) hle
    rw [le_div_iff₀ hh, mul_comm, measureReal_def]
    have := congrArg ENNReal.toReal this
    rw [ENNReal.toReal_mul, ENNReal.toReal_ofReal hh.le, ENNReal.toReal_ofReal (h0 _)] at this
    exact this.le
  · exact measureReal_le_one.trans ((one_le_div hh).2 hle)

theorem below_ceiling (hab : ∀ k, a k < b k) (hp : Measurable p) (h0 : ∀ x, 0 ≤ p x) (hi : IntegrableOn p (box a b)) {h : ℝ}
    (hh : 0 < h) (hle : ∀ᵐ x ∂(volume.restrict (box a b)), p x ≤ h) :
    below p a b h = (∫ x in box a b, p x) / vol a b / h := by
  obtain ⟨h1, h2⟩ := integral_pt a b hab p hp hi
  unfold below
  rw [integral_prod _ (below_integrable hp h), ← h2, div_eq_mul_inv, ← integral_mul_const]
  have hae : ∀ᵐ u ∂(uniformDraw d), p (pt a b u) ≤ h := by
    have : ∀ᵐ x ∂((uniformDraw d).map (pt a b)), p x ≤ h := by
      rw [map_pt a b hab]
      exact Measure.smul_absolutelyContinuous.ae_le hle
    exact ae_of_ae_map (pt_measurable a b).aemeasurable this
  refine integral_congr_ae ?_
  filter_upwards [hae] with u hu
  have hms : MeasurableSet {v : ℝ | h * v ≤ p (pt a b u)} := measurableSet_le (by fun_prop) measurable_const
  have e : ∫ v, (if h * v ≤ p (pt a b u) then (1 : ℝ) else 0) ∂((volume : Measure ℝ).restrict (Ico 0 1)) =
      ((volume : Measure ℝ).restrict (Ico 0 1)).real {v | h * v ≤ p (pt a b u)} := by
    rw [← integral_indicator_one hms]
    rfl
  rw [e, ← div_eq_mul_inv, eq_div_iff hh.ne', mul_comm, measureReal_def]
  have := congrArg ENNReal.toReal (below_volume (h0 (pt a b u)) hu)
  rw [ENNReal.toReal_mul, ENNReal.toReal_ofReal hh.le, ENNReal.toReal_ofReal (h0 _)] at this
  exact this

/-- The first `n` draws of the stream, as arguments of the call. -/
def firstPts (ω : ℕ → (Fin d → ℝ) × ℝ) (n : ℕ) : Fin n → Fin d → ℝ := fun i => (ω i).1

/-- The numbers of the second generator call. -/
def firstNums (ω : ℕ → (Fin d → ℝ) × ℝ) (n : ℕ) : Fin n → ℝ := fun i => (ω i).2

theorem integral_stream (ω : ℕ → (Fin d → ℝ) × ℝ) (n : ℕ) (hn : 0 < n) :
    integral p a b (firstPts ω n) (firstNums ω n) =
      .ok (frac p a b (height hn p a b (firstPts ω n)) ω n * (vol a b * height hn p a b (firstPts ω n))) := by
  rw [integral_eq hn]
  unfold frac vol
  rw [Finset.sum_range fun k => if height hn p a b (firstPts ω n) * (ω k).2 ≤ p (pt a b (ω k).1) then (1 : ℝ) else 0]
  rfl

/-- **C114** The default integral converges: for a measurable density that is nonnegative and bounded on the box, for almost
every stream of random numbers, `integral(a, b, nsamples)` returns a number for every positive number of samples, and these
numbers converge to the integral of the density over the box. -/
theorem C114_consistent (p : (Fin d → ℝ) → ℝ) (hp : Measurable p) (h0 : ∀ x, 0 ≤ p x) (a b : Fin d → ℝ)
    (hab : ∀ k, a k < b k) (M : ℝ) (hM : ∀ x ∈ box a b, p x ≤ M) :
    ∀ᵐ ω ∂(pairStream d), ∃ v : ℕ → ℝ,
      (∀ n, 0 < n → integral p a b (firstPts ω n) (firstNums ω n) = .ok (v n)) ∧
      Tendsto v atTop (𝓝 (∫ x in box a b, p x)) := by
  have hV := vol_pos hab
  have hM0 : 0 ≤ M := by
    have : a ∈ box a b := fun k _ => ⟨le_rfl, hab k⟩
    exact (h0 a).trans (hM a this)
  have hfin : volume (box a b) ≠ ⊤ := by
    unfold box
    rw [Real.volume_pi_Ico]
    exact ENNReal.prod_ne_top fun _ _ => ENNReal.ofReal_ne_top
  have hi : IntegrableOn p (box a b) := by
    refine Measure.integrableOn_of_bounded (M := M) hfin hp.aestronglyMeasurable ?_
    refine (ae_restrict_iff' (measurableSet_box a b)).2 (Eventually.of_forall fun x hx => ?_)
    rw [Real.norm_eq_abs, abs_of_nonneg (h0 x)]
    exact hM x hx
  obtain ⟨hH0, hHae, hHlow⟩ := ceiling_spec hM0 hM
  obtain ⟨H, hHe⟩ : ∃ H, H = ceiling p a b := ⟨_, rfl⟩
  rw [← hHe] at hH0 hHae hHlow
  obtain ⟨I, hI⟩ : ∃ I, I = ∫ x in box a b, p x := ⟨_, rfl⟩
  have hI0 : 0 ≤ I := hI ▸ setIntegral_nonneg (measurableSet_box a b) fun x _ => h0 x
  -- the draws
  have hmp : ∀ k : ℕ, MeasurePreserving (fun ω : ℕ → (Fin d → ℝ) × ℝ => ω k) (pairStream d)
      ((uniformDraw d).prod ((volume : Measure ℝ).restrict (Ico 0 1))) :=
    fun k => measurePreserving_eval_infinitePi (fun _ => (uniformDraw d).prod ((volume : Measure ℝ).restrict (Ico 0 1))) k
  have hnum : ∀ᵐ ω ∂(pairStream d), ∀ k, 0 ≤ (ω k).2 := by
    rw [ae_all_iff]
    intro k
    have h1 : ∀ᵐ v ∂((volume : Measure ℝ).restrict (Ico 0 1)), 0 ≤ v :=
      (ae_restrict_iff' measurableSet_Ico).2 (Eventually.of_forall fun v hv => hv.1)
    exact (hmp k).quasiMeasurePreserving.ae (Measure.quasiMeasurePreserving_snd.ae h1)
  have hle : ∀ᵐ ω ∂(pairStream d), ∀ k, p (pt a b (ω k).1) ≤ H := by
    rw [ae_all_iff]
    intro k
    have h1 : ∀ᵐ u ∂(uniformDraw d), p (pt a b u) ≤ H := by
      have : ∀ᵐ x ∂((uniformDraw d).map (pt a b)), p x ≤ H := by
        rw [map_pt a b hab]
        exact Measure.smul_absolutelyContinuous.ae_le hHae
      exact ae_of_ae_map (pt_measurable a b).aemeasurable this
    exact (hmp k).quasiMeasurePreserving.ae (Measure.quasiMeasurePreserving_fst.ae h1)
  have hreach : ∀ᵐ ω ∂(pairStream d), ∀ r : ℚ, 0 ≤ (r : ℝ) → (r : ℝ) < H → ∃ k, (r : ℝ) < p (pt a b (ω k).1) := by
    rw [ae_all_iff]
    intro r
    by_cases hr : 0 ≤ (r : ℝ) ∧ (r : ℝ) < H
    · have hS : MeasurableSet {x | (r : ℝ) < p x} := measurableSet_lt measurable_const hp
      have hpos : 0 < ∫ x in box a b, {x | (r : ℝ) < p x}.indicator (fun _ => (1 : ℝ)) x := by
        rw [setIntegral_indicator hS, setIntegral_const, smul_eq_mul, mul_one, measureReal_def]
        exact ENNReal.toReal_pos (hHlow r hr.1 hr.2) (measure_ne_top_of_subset inter_subset_left hfin)
      have hint : IntegrableOn ({x | (r : ℝ) < p x}.indicator fun _ => (1 : ℝ)) (box a b) := by
        have : Integrable (fun _ : Fin d → ℝ => (1 : ℝ)) (volume.restrict (box a b)) := integrableOn_const hfin
        exact this.indicator hS
      obtain ⟨i1, i2⟩ := integral_pt a b hab _ (measurable_const.indicator hS) hint
      have hmeas : Measurable fun w : (Fin d → ℝ) × ℝ => {x | (r : ℝ) < p x}.indicator (fun _ => (1 : ℝ)) (pt a b w.1) :=
        (measurable_const.indicator hS).comp ((pt_measurable a b).comp measurable_fst)
      have h := slln_iid ((uniformDraw d).prod ((volume : Measure ℝ).restrict (Ico 0 1)))
        (fun w => {x | (r : ℝ) < p x}.indicator (fun _ => (1 : ℝ)) (pt a b w.1)) hmeas
        (i1.comp_fst _)
      rw [integral_fun_fst (fun u => {x | (r : ℝ) < p x}.indicator (fun _ => (1 : ℝ)) (pt a b u)), i2] at h
      filter_upwards [h] with ω hω _ _
      by_contra hno
      push Not at hno
      have hz : ∀ k, {x | (r : ℝ) < p x}.indicator (fun _ => (1 : ℝ)) (pt a b (ω k).1) = 0 := fun k =>
        indicator_of_notMem (by simpa using hno k) _
      simp only [hz, Finset.sum_const_zero, zero_div] at hω
      have := tendsto_nhds_unique hω tendsto_const_nhds
      simp only [probReal_univ, one_smul] at this
      have h3 := div_pos hpos hV
      linarith
    · exact Eventually.of_forall fun ω h1 h2 => absurd ⟨h1, h2⟩ hr
  have hfr : ∀ᵐ ω ∂(pairStream d), ∀ r : ℚ, Tendsto (frac p a b r ω) atTop (𝓝 (below p a b r)) :=
    ae_all_iff.2 fun r => frac_tendsto hp r
  filter_upwards [hnum, hle, hreach, hfr, frac_tendsto (a := a) (b := b) hp H] with ω w1 w2 w3 w4 w5
  obtain ⟨Hn, hHn⟩ : ∃ Hn : ℕ → ℝ, ∀ n (hn : 0 < n), Hn n = height hn p a b (firstPts ω n) :=
    ⟨fun n => if hn : 0 < n then height hn p a b (firstPts ω n) else 0, fun n hn => dif_pos hn⟩
  have hup : ∀ n, 0 < n → Hn n ≤ H := fun n hn => by
    rw [hHn n hn]
    exact Finset.sup'_le _ _ fun i _ => w2 i
  have hnn : ∀ n, 0 < n → 0 ≤ Hn n := fun n hn => by
    rw [hHn n hn]
    exact (h0 _).trans (le_height hn p a b (firstPts ω n) ⟨0, hn⟩)
  have hlow : ∀ r : ℚ, 0 ≤ (r : ℝ) → (r : ℝ) < H → ∀ᶠ n in atTop, (r : ℝ) ≤ Hn n := by
    intro r h1 h2
    obtain ⟨k, hk⟩ := w3 r h1 h2
    filter_upwards [eventually_gt_atTop k] with n hn
    rw [hHn n (by omega)]
    exact hk.le.trans (le_height (by omega) p a b (firstPts ω n) ⟨k, hn⟩)
  refine ⟨fun n => frac p a b (Hn n) ω n * (vol a b * Hn n), fun n hn => by
    simp only
    rw [hHn n hn]
    exact integral_stream ω n hn, ?_⟩
  rw [← hI]
  rcases hH0.eq_or_lt with hz | hpos
  · -- the density vanishes almost everywhere
    have hI' : I = 0 := by
      rw [hI]
      refine integral_eq_zero_of_ae ?_
      filter_upwards [hHae] with x hx
      exact le_antisymm (hx.trans hz.symm.le) (h0 x)
    rw [hI']
    refine tendsto_const_nhds.congr' ?_
    filter_upwards [eventually_gt_atTop 0] with n hn
    have := le_antisymm ((hup n hn).trans hz.symm.le) (hnn n hn)
    rw [this]
    ring
  have hHt : Tendsto Hn atTop (𝓝 H) := by
    rw [tendsto_order]
    constructor
    · intro y hy
      obtain ⟨r, hr1, hr2⟩ := exists_rat_btwn (max_lt hy hpos)
      filter_upwards [hlow r ((le_max_right _ _).trans hr1.le) hr2] with n hn
      exact ((le_max_left _ _).trans_lt hr1).trans_le hn
    · intro y hy
      filter_upwards [eventually_gt_atTop 0] with n hn
      exact (hup n hn).trans_lt hy
  rw [tendsto_order]
  constructor
  · intro y hy
    have ht : Tendsto (fun n => frac p a b H ω n * (vol a b * Hn n)) atTop (𝓝 I) := by
      have := w5.mul (hHt.const_mul (vol a b))
      rw [below_ceiling hab hp h0 hi hpos hHae, ← hI] at this
      have e : I / vol a b / H * (vol a b * H) = I := by field_simp
      rwa [e] at this
    filter_upwards [ht.eventually (lt_mem_nhds hy), eventually_gt_atTop 0] with n h1 hn
    refine h1.trans_le (mul_le_mul_of_nonneg_right (frac_mono (hup n hn) w1 n) ?_)
    exact mul_nonneg hV.le (hnn n hn)
  · intro y hy
    have hc : Tendsto (fun r : ℝ => I / r * H) (𝓝 H) (𝓝 I) := by
      have : ContinuousAt (fun r : ℝ => I / r * H) H := (continuousAt_const.div continuousAt_id hpos.ne').mul continuousAt_const
      have e : I / H * H = I := by field_simp
      have h := this.tendsto
      simp only [e] at h
      exact h
    have hev := hc.eventually (gt_mem_nhds hy)
    obtain ⟨ε, hε, hball⟩ := Metric.eventually_nhds_iff.1 hev
    obtain ⟨r, hr1, hr2⟩ := exists_rat_btwn (max_lt (sub_lt_self H hε) hpos)
    have hr0 : 0 < (r : ℝ) := (le_max_right _ _).trans_lt hr1
    have hry : I / r * H < y := by
      refine hball ?_
      rw [Real.dist_eq, abs_lt]
      have := (le_max_left (H - ε) 0).trans_lt hr1
      constructor <;> linarith
    have ht : Tendsto (fun n => frac p a b r ω n * (vol a b * H)) atTop (𝓝 (below p a b r * (vol a b * H))) :=
      (w4 r).mul_const _
    have hlt : below p a b r * (vol a b * H) < y := by
      refine lt_of_le_of_lt ?_ hry
      have := below_le hab hp h0 hi hr0
      rw [← hI] at this
      calc _ ≤ I / vol a b / r * (vol a b * H) := mul_le_mul_of_nonneg_right this (by positivity)
        _ = _ := by field_simp
    filter_upwards [ht.eventually (gt_mem_nhds hlt), hlow r hr0.le hr2, eventually_gt_atTop 0] with n h1 h2 hn
    refine lt_of_le_of_lt ?_ h1
    refine mul_le_mul (frac_mono h2 w1 n) (mul_le_mul_of_nonneg_left (hup n hn) hV.le) (mul_nonneg hV.le (hnn n hn))
      (frac_nonneg _ _ _)

/-- A density that is not constant: `|x|` on `[-1, 2) x [0, 5)`. -/
example : ∀ᵐ ω ∂(pairStream 2), ∃ v : ℕ → ℝ,
    (∀ n, 0 < n → integral (fun x : Fin 2 → ℝ => |x 0|) ![-1, 0] ![2, 5] (firstPts ω n) (firstNums ω n) = .ok (v n)) ∧
    Tendsto v atTop (𝓝 (∫ x in box ![-1, 0] ![2, 5], |x 0|)) :=
  C114_consistent (fun x : Fin 2 → ℝ => |x 0|) (measurable_norm.comp (measurable_pi_apply 0)) (fun _ => abs_nonneg _) _ _
    (by intro k; fin_cases k <;> norm_num) 2 (by
      intro x hx
      have := hx 0 (mem_univ 0)
      simp at this
      show |x 0| ≤ 2
      rw [abs_le]
      constructor <;> linarith)

end
end MCInt
end Verif
