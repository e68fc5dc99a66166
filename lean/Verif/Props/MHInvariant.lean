import Verif.Spec.MHLaw
import Verif.Proof.MH
import Mathlib.MeasureTheory.Measure.Prod
import Mathlib.MeasureTheory.Group.LIntegral
import Mathlib.MeasureTheory.Measure.Haar.OfBasis
import Mathlib.MeasureTheory.Measure.Lebesgue.EqHaar
import Mathlib.Analysis.SpecificLimits.Basic

/-!
# Metropolis-Hastings: C48, the invariant distribution
-/

set_option linter.unusedSectionVars false
set_option autoImplicit false

namespace Verif
namespace MHast

open MeasureTheory Set

variable {d : ℕ}

theorem xlog_pos {a : ℝ} (h : 0 < a) : XF.log (.fin a) = .fin (Real.log a) := by
  simp [XF.log, not_lt.2 h.le, h.ne']

theorem xlog_zero : XF.log (.fin 0) = .ninf := by simp [XF.log]

theorem xlog_neg {a : ℝ} (h : a < 0) : XF.log (.fin a) = .nan := by simp [XF.log, h]

theorem test_iff {a b r s : ℝ} (ha : 0 ≤ a) (hb : 0 ≤ b) (hr : 0 ≤ r) (hs : 0 ≤ s) (u : ℝ) :
    XF.ltb (XF.log (.fin u)) ((XF.log (.fin b) - XF.log (.fin a)) + (XF.log (.fin r) - XF.log (.fin s))) = true ↔
      0 ≤ u ∧ u * (a * s) < b * r := by
  rcases lt_trichotomy u 0 with hu | hu | hu
  · rw [xlog_neg hu]
    simp [XF.ltb, not_le.2 hu]
  · subst hu
    rw [xlog_zero]
    rcases ha.eq_or_lt with rfl | ha <;> rcases hb.eq_or_lt with rfl | hb <;> rcases hr.eq_or_lt with rfl | hr <;>
      rcases hs.eq_or_lt with rfl | hs <;>
      simp only [xlog_zero, xlog_pos, *, mul_zero, zero_mul, lt_self_iff_false,
        and_false, and_true, le_refl, true_and, mul_pos, iff_true, iff_false] <;> first | rfl | (intro h; cases h)
  · rw [xlog_pos hu]
    rcases ha.eq_or_lt with rfl | ha <;> rcases hb.eq_or_lt with rfl | hb <;> rcases hr.eq_or_lt with rfl | hr <;>
      rcases hs.eq_or_lt with rfl | hs <;>
      simp only [xlog_zero, xlog_pos, *, mul_zero, zero_mul, lt_self_iff_false,
        and_false, and_true, hu.le, true_and, mul_pos, iff_true, iff_false]
    all_goals first | rfl | (intro h; cases h; done) |
      (refine iff_of_false (by intro h; cases h) (not_lt.2 (by positivity)); done) | skip
    · rw [XF.fin_sub, XF.fin_sub, XF.fin_add]
      show decide _ = true ↔ _
      rw [decide_eq_true_eq, ← Real.log_lt_log_iff (x := u * (a * s)) (y := b * r) (by positivity) (by positivity), Real.log_mul hu.ne' (by positivity),
        Real.log_mul ha.ne' hs.ne', Real.log_mul hb.ne' hr.ne']
      constructor <;> intro h <;> linarith

section
variable {lo hi : Fin d → ℝ} {p q : (Fin d → ℝ) → ℝ}

/-- The acceptance test without logarithms. -/
theorem accepts_iff (hp : ∀ x, 0 ≤ p x) (hq : ∀ x, 0 ≤ q x) (x y : Fin d → ℝ) (u : ℝ) :
    accepts (densCfg lo hi p q) x y u = true ↔ 0 ≤ u ∧ u * (p x * q (y - x)) < p y * q (x - y) := by
  unfold accepts alpha densCfg
  simp only
  exact test_iff (hp x) (hp y) (hq _) (hq _) u

theorem propose_measurable : Measurable fun t : (Fin d → ℝ) × (Fin d → ℝ) => propose (densCfg lo hi p q) t.1 t.2 := by
  unfold propose clip densCfg
  refine measurable_pi_lambda _ fun i => ?_
  fun_prop

theorem acc_measurable (hp : IsDensity p) (hq : IsDensity q) {B : Set (Fin d → ℝ)} (hB : MeasurableSet B) :
    MeasurableSet {t : (Fin d → ℝ) × (Fin d → ℝ) × ℝ |
      accepts (densCfg lo hi p q) t.1 (propose (densCfg lo hi p q) t.1 t.2.1) t.2.2 = true ∧
        propose (densCfg lo hi p q) t.1 t.2.1 ∈ B} := by
  simp only [accepts_iff hp.nonneg hq.nonneg]
  have hy : Measurable fun t : (Fin d → ℝ) × (Fin d → ℝ) × ℝ => propose (densCfg lo hi p q) t.1 t.2.1 :=
    propose_measurable.comp (measurable_fst.prodMk (measurable_fst.comp measurable_snd))
  have hpx := hp.meas
  have hqx := hq.meas
  refine MeasurableSet.inter (MeasurableSet.inter ?_ ?_) (hy hB)
  · exact measurableSet_le (f := fun _ => (0 : ℝ)) measurable_const (measurable_snd.comp measurable_snd)
  · exact measurableSet_lt
      ((measurable_snd.comp measurable_snd).mul ((hpx.comp measurable_fst).mul (hqx.comp (hy.sub measurable_fst))))
      ((hpx.comp hy).mul (hqx.comp (measurable_fst.sub hy)))

theorem acc_section_measurable (hp : IsDensity p) (hq : IsDensity q) (x : Fin d → ℝ) {B : Set (Fin d → ℝ)}
    (hB : MeasurableSet B) :
    MeasurableSet {t : (Fin d → ℝ) × ℝ | accepts (densCfg lo hi p q) x (propose (densCfg lo hi p q) x t.1) t.2 = true ∧
        propose (densCfg lo hi p q) x t.1 ∈ B} :=
  measurable_prodMk_left (x := x) (acc_measurable (lo := lo) (hi := hi) hp hq hB)

theorem lawProb (hq : IsDensity q) : IsProbabilityMeasure (tryLaw q) := by
  have h1 : IsProbabilityMeasure (volume.withDensity fun z : Fin d → ℝ => ENNReal.ofReal (q z)) :=
    ⟨by rw [withDensity_apply _ MeasurableSet.univ, Measure.restrict_univ, hq.total]⟩
  have h2 : IsProbabilityMeasure ((volume : Measure ℝ).restrict (Ico 0 1)) := ⟨by simp⟩
  unfold tryLaw
  infer_instance

/-- Uniform numbers that pass the test. -/
theorem test_volume {A C : ℝ} (hA : 0 < A) (hC : 0 ≤ C) :
    ENNReal.ofReal A * (volume.restrict (Ico (0 : ℝ) 1)) {u | 0 ≤ u ∧ u * A < C} = ENNReal.ofReal (min A C) := by
  have hs : {u : ℝ | 0 ≤ u ∧ u * A < C} ∩ Ico 0 1 = Ico 0 (min 1 (C / A)) := by
    ext u
    simp only [mem_inter_iff, mem_setOf_eq, mem_Ico, lt_min_iff, lt_div_iff₀ hA]
    tauto
  rw [Measure.restrict_apply' measurableSet_Ico, hs, Real.volume_Ico, sub_zero, ← ENNReal.ofReal_mul hA.le]
  congr 1
  rw [mul_min_of_nonneg _ _ hA.le, mul_one, mul_div_cancel₀ _ hA.ne']

/-- Density of the accepted moves: `p x` times the probability density of moving from `x` to `y`. -/
noncomputable def flow (p q : (Fin d → ℝ) → ℝ) (x y : Fin d → ℝ) : ENNReal :=
  ENNReal.ofReal (min (p x * q (y - x)) (p y * q (x - y)))

theorem flow_symm (x y : Fin d → ℝ) : flow p q x y = flow p q y x := by
  unfold flow
  rw [min_comm]

theorem propose_out {x z : Fin d → ℝ} (h : ¬ ∀ i, lo i ≤ (x + z) i ∧ (x + z) i ≤ hi i) :
    ¬ ∀ i, lo i < propose (densCfg lo hi p q) x z i ∧ propose (densCfg lo hi p q) x z i < hi i := by
  intro h'
  apply h
  intro i
  have hi' := h' i
  simp only [propose, clip, densCfg] at hi'
  constructor
  · by_contra hc
    rw [max_eq_right (not_le.1 hc).le] at hi'
    exact absurd hi'.1 (not_lt.2 (min_le_left _ _))
  · by_contra hc
    rw [min_eq_right ((not_le.1 hc).le.trans (le_max_left _ _))] at hi'
    exact lt_irrefl _ hi'.2

theorem propose_in {x z : Fin d → ℝ} (h : ∀ i, lo i ≤ (x + z) i ∧ (x + z) i ≤ hi i) :
    propose (densCfg lo hi p q) x z = x + z := by
  funext i
  simp only [propose, clip, densCfg]
  rw [max_eq_left (h i).1, min_eq_left (h i).2]

theorem mass_eq (hp : IsDensity p) (hq : IsDensity q) (hin : ∀ x, 0 < p x → ∀ i, lo i < x i ∧ x i < hi i)
    (x : Fin d → ℝ) {B : Set (Fin d → ℝ)} (hB : MeasurableSet B) :
    ENNReal.ofReal (p x) * acceptProb (densCfg lo hi p q) q x B = ∫⁻ y in B, flow p q x y := by
  have hm := acc_section_measurable (lo := lo) (hi := hi) hp hq x hB
  unfold acceptProb tryLaw
  rw [Measure.prod_apply hm, lintegral_withDensity_eq_lintegral_mul _ hq.meas.ennreal_ofReal
    (measurable_measure_prodMk_left hm), ← lintegral_const_mul' _ _ ENNReal.ofReal_ne_top]
  rw [← lintegral_indicator hB, ← lintegral_add_left_eq_self (μ := volume) (B.indicator fun y => flow p q x y) x]
  refine lintegral_congr fun z => ?_
  simp only [Pi.mul_apply, preimage_setOf_eq, accepts_iff hp.nonneg hq.nonneg]
  by_cases hbox : ∀ i, lo i ≤ (x + z) i ∧ (x + z) i ≤ hi i
  · rw [propose_in hbox, add_sub_cancel_left, show x - (x + z) = -z by abel]
    by_cases hy : x + z ∈ B
    · rw [indicator_of_mem hy, flow, add_sub_cancel_left, show x - (x + z) = -z by abel, ← mul_assoc,
        ← ENNReal.ofReal_mul (hp.nonneg x)]
      simp only [hy, and_true]
      rcases (mul_nonneg (hp.nonneg x) (hq.nonneg z)).eq_or_lt with h0 | h0
      · rw [← h0, ENNReal.ofReal_zero, zero_mul, min_eq_left (mul_nonneg (hp.nonneg _) (hq.nonneg _)), ENNReal.ofReal_zero]
      · exact test_volume h0 (mul_nonneg (hp.nonneg _) (hq.nonneg _))
    · rw [indicator_of_notMem hy]
      simp [hy]
  · have h1 : p (x + z) = 0 := by
      by_contra h
      exact hbox fun i => ⟨(hin _ (lt_of_le_of_ne (hp.nonneg _) (Ne.symm h)) i).1.le, (hin _ (lt_of_le_of_ne (hp.nonneg _) (Ne.symm h)) i).2.le⟩
    have h2 : p (propose (densCfg lo hi p q) x z) = 0 := by
      by_contra h
      exact propose_out hbox (hin _ (lt_of_le_of_ne (hp.nonneg _) (Ne.symm h)))
    have hf : flow p q x (x + z) = 0 := by
      rw [flow, h1, zero_mul, min_eq_right (mul_nonneg (hp.nonneg _) (hq.nonneg _)), ENNReal.ofReal_zero]
    have he : {u : ℝ | (0 ≤ u ∧ u * (p x * q (propose (densCfg lo hi p q) x z - x)) <
        p (propose (densCfg lo hi p q) x z) * q (x - propose (densCfg lo hi p q) x z)) ∧
        propose (densCfg lo hi p q) x z ∈ B} = ∅ := by
      ext u
      simp only [mem_setOf_eq, mem_empty_iff_false, iff_false]
      rintro ⟨⟨h3, h4⟩, -⟩
      rw [h2, zero_mul] at h4
      exact absurd h4 (not_lt.2 (mul_nonneg h3 (mul_nonneg (hp.nonneg _) (hq.nonneg _))))
    rw [he, measure_empty, mul_zero, mul_zero]
    by_cases hy : x + z ∈ B
    · rw [indicator_of_mem hy, hf]
    · rw [indicator_of_notMem hy]

theorem flow_measurable (hp : IsDensity p) (hq : IsDensity q) :
    Measurable (Function.uncurry fun x y : Fin d → ℝ => flow p q x y) := by
  have h1 := hp.meas
  have h2 := hq.meas
  unfold flow Function.uncurry
  refine Measurable.ennreal_ofReal (Measurable.min ?_ ?_)
  · exact (h1.comp measurable_fst).mul (h2.comp (measurable_snd.sub measurable_fst))
  · exact (h1.comp measurable_snd).mul (h2.comp (measurable_fst.sub measurable_snd))

/-- **C48**, what holds of the acceptance test: detailed balance. For every target density that vanishes on the border
of the search space and every proposal density, the flow of accepted tries from `A` to `B` equals the flow back. -/
theorem C48_detailed_balance (hp : IsDensity p) (hq : IsDensity q)
    (hin : ∀ x, 0 < p x → ∀ i, lo i < x i ∧ x i < hi i) {A B : Set (Fin d → ℝ)} (hA : MeasurableSet A)
    (hB : MeasurableSet B) :
    ∫⁻ x in A, ENNReal.ofReal (p x) * acceptProb (densCfg lo hi p q) q x B =
      ∫⁻ x in B, ENNReal.ofReal (p x) * acceptProb (densCfg lo hi p q) q x A := by
  simp only [mass_eq hp hq hin _ hA, mass_eq hp hq hin _ hB]
  rw [lintegral_lintegral_swap (flow_measurable hp hq).aemeasurable]
  simp only [flow_symm]

/-! ### The law of a step -/

/-- The first accepted try is in `B`. -/
def hit (c : Cfg d) (x : Fin d → ℝ) (B : Set (Fin d → ℝ)) : List (Try d) → Prop
  | [] => False
  | t :: ts => (accepts c x (propose c x t.z) t.u = true ∧ propose c x t.z ∈ B) ∨
      (¬ accepts c x (propose c x t.z) t.u = true ∧ hit c x B ts)

theorem hit_none {c : Cfg d} {x : Fin d → ℝ} {B : Set (Fin d → ℝ)} : ∀ {ts : List (Try d)},
    (∀ r ∈ ts, accepts c x (propose c x r.z) r.u = false) → ¬ hit c x B ts
  | [], _ => fun h => h
  | t :: ts, h => by
    rintro (⟨h1, -⟩ | ⟨-, h1⟩)
    · rw [h t List.mem_cons_self] at h1; cases h1
    · exact hit_none (fun r hr => h r (List.mem_cons_of_mem _ hr)) h1

theorem hit_append {c : Cfg d} {x : Fin d → ℝ} {B : Set (Fin d → ℝ)} {t : Try d} {rest : List (Try d)}
    (ht : accepts c x (propose c x t.z) t.u = true) : ∀ {rej : List (Try d)},
    (∀ r ∈ rej, accepts c x (propose c x r.z) r.u = false) → (hit c x B (rej ++ t :: rest) ↔ propose c x t.z ∈ B)
  | [], _ => by simp [hit, ht]
  | r :: rej, h => by
    have h1 := h r List.mem_cons_self
    simp only [List.cons_append, hit, h1, Bool.false_eq_true, false_and, not_false_eq_true, true_and, false_or]
    exact hit_append ht fun r hr => h r (List.mem_cons_of_mem _ hr)

theorem step_hit (c : Cfg d) (x : Fin d → ℝ) (S : MH d) (B : Set (Fin d → ℝ)) {ts : List (Try d)}
    (hl : ∀ t ∈ ts, t.late = false) :
    (∃ S' y, mcmcStep c x ⟨false, ts⟩ S = .done (S', y) ∧ y ∈ B) ↔ hit c x B ts := by
  rcases mcmcStep_cases c x ⟨false, ts⟩ S with ⟨_, -, e, h⟩ | ⟨h1, -, e⟩ | ⟨h1, -, e⟩ | ⟨-, rej, t, rest, h2, h3, h4, e⟩
  · rw [e]
    refine iff_of_false ?_ (hit_none fun r hr => (h r hr).1)
    rintro ⟨S', y, h1, -⟩
    cases h1
  · cases h1
  · cases h1
  · rw [e]
    have h2 : ts = rej ++ t :: rest := h2
    have ht : accepts c x (propose c x t.z) t.u = true := by
      rcases h4 with h4 | h4
      · exact h4
      · rw [hl t (by simp [h2])] at h4; cases h4
    rw [h2, hit_append ht fun r hr => (h3 r hr).1]
    constructor
    · rintro ⟨S', y, h5, h6⟩
      cases h5
      exact h6
    · intro h6
      exact ⟨_, _, rfl, h6⟩

theorem triesOf_succ {k : ℕ} (ω : Fin (k + 1) → (Fin d → ℝ) × ℝ) :
    triesOf ω = ⟨(ω 0).1, (ω 0).2, false⟩ :: triesOf fun i => ω i.succ := by
  unfold triesOf
  rw [List.ofFn_succ]

theorem triesOf_late {k : ℕ} (ω : Fin k → (Fin d → ℝ) × ℝ) : ∀ t ∈ triesOf ω, t.late = false := by
  intro t ht
  unfold triesOf at ht
  rw [List.mem_ofFn] at ht
  obtain ⟨i, rfl⟩ := ht
  rfl

theorem hit_set (x : Fin d → ℝ) (B : Set (Fin d → ℝ)) (k : ℕ) :
    {ω : Fin (k + 1) → (Fin d → ℝ) × ℝ | hit (densCfg lo hi p q) x B (triesOf ω)} =
      MeasurableEquiv.piFinSuccAbove (fun _ => (Fin d → ℝ) × ℝ) 0 ⁻¹'
        (({t : (Fin d → ℝ) × ℝ | accepts (densCfg lo hi p q) x (propose (densCfg lo hi p q) x t.1) t.2 = true ∧
          propose (densCfg lo hi p q) x t.1 ∈ B} ×ˢ univ) ∪
        ({t : (Fin d → ℝ) × ℝ | accepts (densCfg lo hi p q) x (propose (densCfg lo hi p q) x t.1) t.2 = true ∧
          propose (densCfg lo hi p q) x t.1 ∈ (univ : Set (Fin d → ℝ))}ᶜ ×ˢ {ω | hit (densCfg lo hi p q) x B (triesOf ω)})) := by
  ext ω
  simp only [mem_setOf_eq, triesOf_succ, hit, mem_preimage, mem_union, mem_prod, mem_univ, and_true, mem_compl_iff]
  rfl

theorem hit_measurable (hp : IsDensity p) (hq : IsDensity q) (x : Fin d → ℝ) {B : Set (Fin d → ℝ)} (hB : MeasurableSet B) :
    ∀ k : ℕ, MeasurableSet {ω : Fin k → (Fin d → ℝ) × ℝ | hit (densCfg lo hi p q) x B (triesOf ω)}
  | 0 => by
    have : {ω : Fin 0 → (Fin d → ℝ) × ℝ | hit (densCfg lo hi p q) x B (triesOf ω)} = ∅ := by
      ext ω
      simp [triesOf, hit]
    rw [this]
    exact MeasurableSet.empty
  | k + 1 => by
    rw [hit_set]
    refine MeasurableEquiv.measurable _ (MeasurableSet.union ?_ ?_)
    · exact (acc_section_measurable hp hq x hB).prod MeasurableSet.univ
    · exact (acc_section_measurable hp hq x MeasurableSet.univ).compl.prod (hit_measurable hp hq x hB k)

theorem stepProb_succ (hp : IsDensity p) (hq : IsDensity q) (x : Fin d → ℝ) {B : Set (Fin d → ℝ)} (hB : MeasurableSet B)
    (k : ℕ) :
    Measure.pi (fun _ : Fin (k + 1) => tryLaw q) {ω | hit (densCfg lo hi p q) x B (triesOf ω)} =
      acceptProb (densCfg lo hi p q) q x B + (1 - acceptProb (densCfg lo hi p q) q x univ) *
        Measure.pi (fun _ : Fin k => tryLaw q) {ω | hit (densCfg lo hi p q) x B (triesOf ω)} := by
  haveI := lawProb hq
  have hmB := acc_section_measurable (lo := lo) (hi := hi) hp hq x hB
  have hmU := acc_section_measurable (lo := lo) (hi := hi) hp hq x MeasurableSet.univ
  rw [hit_set, (measurePreserving_piFinSuccAbove (fun _ => tryLaw q) 0).measure_preimage_equiv, measure_union,
    Measure.prod_prod, Measure.prod_prod, measure_univ, mul_one, prob_compl_eq_one_sub hmU]
  · rfl
  · rw [Set.disjoint_left]
    rintro ⟨t, ω⟩ ⟨h1, -⟩ ⟨h2, -⟩
    exact h2 ⟨h1.1, mem_univ _⟩
  · exact hmU.compl.prod (hit_measurable hp hq x hB k)


theorem pi_hit (hp : IsDensity p) (hq : IsDensity q) (x : Fin d → ℝ) {B : Set (Fin d → ℝ)} (hB : MeasurableSet B) :
    ∀ k : ℕ, Measure.pi (fun _ : Fin k => tryLaw q) {ω | hit (densCfg lo hi p q) x B (triesOf ω)} =
      ∑ r ∈ Finset.range k, (1 - acceptProb (densCfg lo hi p q) q x univ) ^ r * acceptProb (densCfg lo hi p q) q x B
  | 0 => by
    have : {ω : Fin 0 → (Fin d → ℝ) × ℝ | hit (densCfg lo hi p q) x B (triesOf ω)} = ∅ := by
      ext ω
      simp [triesOf, hit]
    rw [this]
    simp
  | k + 1 => by
    rw [stepProb_succ hp hq x hB, pi_hit hp hq x hB k, Finset.sum_range_succ', pow_zero, one_mul, add_comm, Finset.mul_sum]
    congr 1
    refine Finset.sum_congr rfl fun r _ => ?_
    rw [pow_succ', mul_assoc]

theorem acceptProb_le_one (hq : IsDensity q) (x : Fin d → ℝ) (B : Set (Fin d → ℝ)) :
    acceptProb (densCfg lo hi p q) q x B ≤ 1 := by
  haveI := lawProb hq
  exact prob_le_one

/-- What `mcmc_step` does: it moves according to the accepted tries only. -/
theorem stepProb_eq (hp : IsDensity p) (hq : IsDensity q) (S : MH d) (x : Fin d → ℝ) {B : Set (Fin d → ℝ)}
    (hB : MeasurableSet B) :
    stepProb (densCfg lo hi p q) q S x B =
      acceptProb (densCfg lo hi p q) q x B / acceptProb (densCfg lo hi p q) q x univ := by
  unfold stepProb
  simp only [step_hit _ _ _ _ (triesOf_late _), pi_hit hp hq x hB]
  rw [← ENNReal.tsum_eq_iSup_nat, ENNReal.tsum_mul_right, ENNReal.tsum_geometric,
    ENNReal.sub_sub_cancel ENNReal.one_ne_top (acceptProb_le_one hq x univ), mul_comm, div_eq_mul_inv]

theorem acceptProb_mono (x : Fin d → ℝ) (c : Cfg d) (B : Set (Fin d → ℝ)) : acceptProb c q x B ≤ acceptProb c q x univ :=
  measure_mono fun _ h => ⟨h.1, mem_univ _⟩

/-- **C48**, what holds of the chain: it leaves invariant the target multiplied by the probability that a try from `x`
is accepted (target density vanishing on the border of the search space, every proposal density). -/
theorem C48_partial (hp : IsDensity p) (hq : IsDensity q) (hin : ∀ x, 0 < p x → ∀ i, lo i < x i ∧ x i < hi i)
    (S : MH d) {B : Set (Fin d → ℝ)} (hB : MeasurableSet B) :
    ∫⁻ x, ENNReal.ofReal (p x) * acceptProb (densCfg lo hi p q) q x univ * stepProb (densCfg lo hi p q) q S x B =
      ∫⁻ x in B, ENNReal.ofReal (p x) * acceptProb (densCfg lo hi p q) q x univ := by
  rw [← C48_detailed_balance hp hq hin MeasurableSet.univ hB, Measure.restrict_univ]
  refine lintegral_congr fun x => ?_
  rw [stepProb_eq hp hq S x hB, mul_assoc]
  congr 1
  rcases eq_or_ne (acceptProb (densCfg lo hi p q) q x univ) 0 with h0 | h0
  · have := acceptProb_mono (q := q) x (densCfg lo hi p q) B
    rw [h0] at this ⊢
    rw [zero_mul]
    exact (le_antisymm this (zero_le)).symm
  · exact ENNReal.mul_div_cancel h0 (ne_top_of_le_ne_top ENNReal.one_ne_top (acceptProb_le_one hq x univ))

end

end MHast
end Verif
