import Verif.Proof.Convergence
import Mathlib.InformationTheory.KullbackLeibler.Basic
import Mathlib.Analysis.SpecialFunctions.Integrals.Basic

/-!
# C111 to C113: what the metrics converge to when the number of evaluation samples grows
-/

set_option linter.unusedSectionVars false
set_option autoImplicit false

namespace Verif
namespace MetricCompute

open MeasureTheory Set MCInt Filter Topology ProbabilityTheory

variable {d : ℕ}

/-! ### Specification -/

/-- A probability density. -/
structure Density (p : (Fin d → ℝ) → ℝ) : Prop where
  meas : Measurable p
  nonneg : ∀ x, 0 ≤ p x
  int : Integrable p
  one : ∫ x, p x = 1

/-- The probability measure with density `p`. -/
noncomputable def lawOf (p : (Fin d → ℝ) → ℝ) : Measure (Fin d → ℝ) := volume.withDensity fun x => ENNReal.ofReal (p x)

/-- Kullback-Leibler divergence of the two densities conditioned on the region `A`. -/
noncomputable def klOn (A : Set (Fin d → ℝ)) (p q : (Fin d → ℝ) → ℝ) : ℝ :=
  ∫ x in A, p x / (∫ y in A, p y) * Real.log (p x / (∫ y in A, p y) / (q x / ∫ y in A, q y))

/-- Jensen-Shannon divergence, in units of `log 2`, of the two densities conditioned on the region `A`. -/
noncomputable def jsOn (A : Set (Fin d → ℝ)) (p q : (Fin d → ℝ) → ℝ) : ℝ :=
  (∫ x in A,
    (1/2 * (p x / ∫ y in A, p y) * Real.log (p x / (∫ y in A, p y) / (1/2 * (p x / (∫ y in A, p y) + q x / ∫ y in A, q y))) +
     1/2 * (q x / ∫ y in A, q y) * Real.log (q x / (∫ y in A, q y) / (1/2 * (p x / (∫ y in A, p y) + q x / ∫ y in A, q y))))) /
    Real.log 2

/-- Jensen-Shannon divergence of two probability densities in units of `log 2`. -/
noncomputable def jsDiv (p q : (Fin d → ℝ) → ℝ) : ℝ :=
  (∫ x, (1/2 * p x * Real.log (p x / (1/2 * (p x + q x))) + 1/2 * q x * Real.log (q x / (1/2 * (p x + q x))))) / Real.log 2

/-- The region of the box where both densities are positive. -/
def region (a b : Fin d → ℝ) (p q : (Fin d → ℝ) → ℝ) : Set (Fin d → ℝ) := {x | x ∈ box a b ∧ 0 < p x ∧ 0 < q x}

/-! ### Limits of the sums -/

theorem region_eq (a b : Fin d → ℝ) (p q : (Fin d → ℝ) → ℝ) : region a b p q = both p q ∩ box a b := by
  ext x
  simp only [region, both, mem_setOf_eq, mem_inter_iff]
  tauto

section Limits

variable {a b : Fin d → ℝ} {p q : (Fin d → ℝ) → ℝ}

theorem measurableSet_region (hp : Measurable p) (hq : Measurable q) : MeasurableSet (region a b p q) := by
  rw [region_eq]
  exact (measurableSet_both hp hq).inter (measurableSet_box a b)

theorem avg_common (hab : ∀ k, a k < b k) (hp : Measurable p) (hq : Measurable q) (f : ℝ × ℝ → ℝ) (hf : Measurable f)
    (hi : IntegrableOn (fun x => f (p x, q x)) (region a b p q)) :
    ∀ᵐ ω ∂(uniformStream d), Tendsto (fun n : ℕ => ((common (vals p q a b ω n)).map f).sum / n) atTop
      (𝓝 ((∫ x in region a b p q, f (p x, q x)) / vol a b)) := by
  have hB := measurableSet_both hp hq
  have hm : Measurable fun x => f (p x, q x) := hf.comp (hp.prodMk hq)
  have h := slln a b hab ((both p q).indicator fun x => f (p x, q x)) (hm.indicator hB) (by
    rw [IntegrableOn, integrable_indicator_iff hB, IntegrableOn, Measure.restrict_restrict hB, ← region_eq]
    exact hi)
  rw [setIntegral_indicator hB, inter_comm, ← region_eq] at h
  filter_upwards [h] with ω hω
  simpa only [common_sum] using hω

theorem region_int_pos (hp : Measurable p) (hq : Measurable q) (hv : volume (region a b p q) ≠ 0)
    (f : (Fin d → ℝ) → ℝ) (hf : ∀ x ∈ region a b p q, 0 < f x) (hi : IntegrableOn f (region a b p q)) :
    0 < ∫ x in region a b p q, f x := by
  have hA := measurableSet_region (a := a) (b := b) hp hq
  rw [setIntegral_pos_iff_support_of_nonneg_ae ((ae_restrict_iff' hA).2 (Eventually.of_forall fun x hx => (hf x hx).le)) hi]
  refine pos_iff_ne_zero.2 fun h => hv ?_
  have : Function.support f ∩ region a b p q = region a b p q :=
    inter_eq_right.2 fun x hx => (hf x hx).ne'
  rwa [this] at h

theorem common_ne_nil {ω : ℕ → Fin d → ℝ} {L : ℝ} (hL : 0 < L)
    (h : Tendsto (fun n : ℕ => ((common (vals p q a b ω n)).map Prod.fst).sum / n) atTop (𝓝 L)) :
    ∀ᶠ n : ℕ in atTop, 0 < n ∧ common (vals p q a b ω n) ≠ [] := by
  filter_upwards [h.eventually (lt_mem_nhds hL), eventually_gt_atTop 0] with n hn h0
  refine ⟨h0, fun he => ?_⟩
  rw [he] at hn
  simp at hn

end Limits

/-! ### C111 Kullback-Leibler -/

theorem klOn_eq {A : Set (Fin d → ℝ)} {p q : (Fin d → ℝ) → ℝ} (hA : MeasurableSet A) (hpos : ∀ x ∈ A, 0 < p x ∧ 0 < q x)
    (hp : IntegrableOn p A) (hl : IntegrableOn (fun x => p x * Real.log (p x / q x)) A)
    (hP : 0 < ∫ x in A, p x) (hQ : 0 < ∫ x in A, q x) :
    klOn A p q = (∫ x in A, p x * Real.log (p x / q x)) / (∫ x in A, p x) -
      Real.log ((∫ x in A, p x) / ∫ x in A, q x) := by
  unfold klOn
  obtain ⟨P, hPe⟩ : ∃ P, P = ∫ x in A, p x := ⟨_, rfl⟩
  obtain ⟨Q, hQe⟩ : ∃ Q, Q = ∫ x in A, q x := ⟨_, rfl⟩
  rw [← hPe] at hP ⊢
  rw [← hQe] at hQ ⊢
  have e : ∀ x ∈ A, p x / P * Real.log (p x / P / (q x / Q)) =
      P⁻¹ * (p x * Real.log (p x / q x)) - (Real.log (P / Q) / P) * p x := by
    intro x hx
    obtain ⟨h1, h2⟩ := hpos x hx
    rw [Real.log_div (div_pos h1 hP).ne' (div_pos h2 hQ).ne', Real.log_div h1.ne' hP.ne', Real.log_div h2.ne' hQ.ne',
      Real.log_div h1.ne' h2.ne', Real.log_div hP.ne' hQ.ne']
    field_simp
    ring
  rw [setIntegral_congr_fun hA e, integral_sub (hl.const_mul _) (hp.const_mul _), integral_const_mul, integral_const_mul,
    ← hPe, div_mul_cancel₀ _ hP.ne', inv_mul_eq_div]

/-- **C111** Limit of the KL metric. Let `p` and `q` be measurable, nonnegative and integrable on the support box of `p`,
both positive on a set of positive volume, with a finite divergence integral there. For almost every stream of random
numbers every value of the metric is a finite number, and as the number of evaluation samples grows the values converge to
the KL divergence of the two densities conditioned on the part of the box where both are positive. -/
theorem C111_partial_limit (a b : Fin d → ℝ) (hab : ∀ k, a k < b k) (p q : (Fin d → ℝ) → ℝ)
    (hp : Measurable p) (hq : Measurable q) (hpi : IntegrableOn p (box a b)) (hqi : IntegrableOn q (box a b))
    (hv : volume (region a b p q) ≠ 0)
    (hl : IntegrableOn (fun x => p x * Real.log (p x / q x)) (region a b p q)) :
    ∀ᵐ ω ∂(uniformStream d), ∃ v : ℕ → ℝ,
      (∀ n, 0 < n → kl (fun x => XF.log (.fin (p x))) (fun x => XF.log (.fin (q x))) a b ω n = .ok (.fin (v n))) ∧
      Tendsto v atTop (𝓝 (klOn (region a b p q) p q)) := by
  have hA := measurableSet_region (a := a) (b := b) hp hq
  have hsub : region a b p q ⊆ box a b := fun x hx => hx.1
  have hpA := hpi.mono_set hsub
  have hqA := hqi.mono_set hsub
  have hP := region_int_pos hp hq hv p (fun x hx => hx.2.1) hpA
  have hQ := region_int_pos hp hq hv q (fun x hx => hx.2.2) hqA
  have hV := vol_pos hab
  filter_upwards [avg_common hab hp hq Prod.fst measurable_fst hpA, avg_common hab hp hq Prod.snd measurable_snd hqA,
    avg_common hab hp hq (fun x => x.1 * Real.log (x.1 / x.2)) (by fun_prop) hl] with ω h1 h2 h3
  refine ⟨fun n => KL.real (common (vals p q a b ω n)), fun n hn => kl_val p q a b ω n hn, ?_⟩
  rw [klOn_eq hA (fun x hx => hx.2) hpA hl hP hQ]
  have hlim := (h3.div h1 (div_pos hP hV).ne').sub
    ((h1.div h2 (div_pos hQ hV).ne').log (div_pos (div_pos hP hV) (div_pos hQ hV)).ne')
  simp only [div_div_div_cancel_right₀ hV.ne'] at hlim
  refine hlim.congr' ?_
  filter_upwards [common_ne_nil (div_pos hP hV) h1] with n hn
  have hn0 : (n : ℝ) ≠ 0 := by exact_mod_cast hn.1.ne'
  simp only [Pi.div_apply]
  rw [kl_real_eq (common_pos _) hn.2, div_div_div_cancel_right₀ hn0, div_div_div_cancel_right₀ hn0]

theorem lawOf_ac {p q : (Fin d → ℝ) → ℝ} (hp : Measurable p) (hq : Measurable q) (h : ∀ᵐ x, 0 < p x → 0 < q x) :
    lawOf p = (lawOf q).withDensity fun x => ENNReal.ofReal (p x) / ENNReal.ofReal (q x) := by
  unfold lawOf
  refine Eq.trans ?_ (withDensity_mul _ hq.ennreal_ofReal (hp.ennreal_ofReal.div hq.ennreal_ofReal))
  refine withDensity_congr_ae ?_
  filter_upwards [h] with x hx
  simp only [Pi.mul_apply, Pi.div_apply]
  by_cases hpx : 0 < p x
  · rw [ENNReal.mul_div_cancel (by simpa using hx hpx) ENNReal.ofReal_ne_top]
  · rw [ENNReal.ofReal_of_nonpos (not_lt.1 hpx), ENNReal.zero_div, mul_zero]

instance sigmaFinite_lawOf (p : (Fin d → ℝ) → ℝ) : SigmaFinite (lawOf p) := by
  unfold lawOf
  infer_instance

theorem llr_lawOf {p q : (Fin d → ℝ) → ℝ} (hp : Measurable p) (hq : Measurable q) (hp0 : ∀ x, 0 ≤ p x) (hq0 : ∀ x, 0 ≤ q x)
    (h : ∀ᵐ x, 0 < p x → 0 < q x) :
    lawOf p ≪ lawOf q ∧ llr (lawOf p) (lawOf q) =ᵐ[lawOf p] fun x => Real.log (p x / q x) := by
  have hac : lawOf p ≪ lawOf q := by
    rw [lawOf_ac hp hq h]
    exact withDensity_absolutelyContinuous _ _
  refine ⟨hac, ?_⟩
  have hr : (lawOf p).rnDeriv (lawOf q) =ᵐ[lawOf q] fun x => ENNReal.ofReal (p x) / ENNReal.ofReal (q x) := by
    conv_lhs => rw [lawOf_ac hp hq h]
    exact Measure.rnDeriv_withDensity _ (hp.ennreal_ofReal.div hq.ennreal_ofReal)
  filter_upwards [hac.ae_le hr] with x hx
  rw [llr_def]
  simp only
  rw [hx, ENNReal.toReal_div, ENNReal.toReal_ofReal (hp0 x), ENNReal.toReal_ofReal (hq0 x)]

theorem lawOf_univ {p : (Fin d → ℝ) → ℝ} (hp : Density p) : lawOf p univ = 1 := by
  unfold lawOf
  rw [withDensity_apply _ MeasurableSet.univ, Measure.restrict_univ,
    ← ofReal_integral_eq_lintegral_ofReal hp.int (Eventually.of_forall hp.nonneg), hp.one, ENNReal.ofReal_one]

theorem klDiv_lawOf {p q : (Fin d → ℝ) → ℝ} (hp : Density p) (hq : Density q) (h : ∀ᵐ x, 0 < p x → 0 < q x)
    (hfin : InformationTheory.klDiv (lawOf p) (lawOf q) ≠ ⊤) :
    Integrable (fun x => p x * Real.log (p x / q x)) ∧
    (InformationTheory.klDiv (lawOf p) (lawOf q)).toReal = ∫ x, p x * Real.log (p x / q x) := by
  obtain ⟨hac, hllr⟩ := llr_lawOf hp.meas hq.meas hp.nonneg hq.nonneg h
  have hi := (InformationTheory.klDiv_ne_top_iff.1 hfin).2
  have hi' : Integrable (fun x => Real.log (p x / q x)) (lawOf p) := hi.congr hllr
  have e : lawOf p = volume.withDensity fun x => ((p x).toNNReal : ENNReal) := rfl
  have : IsFiniteMeasure (lawOf p) := ⟨by rw [lawOf_univ hp]; exact ENNReal.one_lt_top⟩
  have : IsFiniteMeasure (lawOf q) := ⟨by rw [lawOf_univ hq]; exact ENNReal.one_lt_top⟩
  constructor
  · rw [e, integrable_withDensity_iff_integrable_smul hp.meas.real_toNNReal] at hi'
    refine hi'.congr (Eventually.of_forall fun x => ?_)
    simp [NNReal.smul_def, Real.coe_toNNReal _ (hp.nonneg x)]
  · rw [InformationTheory.toReal_klDiv_of_measure_eq hac (by rw [lawOf_univ hp, lawOf_univ hq]), integral_congr_ae hllr, e,
      integral_withDensity_eq_integral_smul hp.meas.real_toNNReal]
    refine integral_congr_ae (Eventually.of_forall fun x => ?_)
    simp [NNReal.smul_def, Real.coe_toNNReal _ (hp.nonneg x)]

theorem int_region {a b : Fin d → ℝ} {p q f : (Fin d → ℝ) → ℝ} (hp : Measurable p) (hq : Measurable q)
    (hf : ∀ᵐ x, x ∉ region a b p q → f x = 0) : ∫ x in region a b p q, f x = ∫ x, f x :=
  setIntegral_eq_integral_of_ae_compl_eq_zero hf

/-- Two densities of which all the mass is in the region where both are positive: the conditioning does nothing. -/
theorem same_support {a b : Fin d → ℝ} {p q : (Fin d → ℝ) → ℝ} (hp : Density p) (hq : Density q)
    (hbox : ∀ᵐ x, x ∉ box a b → p x = 0) (hsup : ∀ᵐ x, 0 < p x ↔ 0 < q x) :
    (∀ᵐ x, x ∉ region a b p q → p x = 0 ∧ q x = 0) ∧ volume (region a b p q) ≠ 0 ∧
      (∫ x in region a b p q, p x) = 1 ∧ (∫ x in region a b p q, q x) = 1 := by
  have h0 : ∀ᵐ x, x ∉ region a b p q → p x = 0 ∧ q x = 0 := by
    filter_upwards [hbox, hsup] with x h1 h2 hx
    have hnp : ¬ 0 < p x := by
      intro hpx
      refine hx ⟨?_, hpx, h2.1 hpx⟩
      by_contra hb
      exact hpx.ne' (h1 hb)
    exact ⟨le_antisymm (not_lt.1 hnp) (hp.nonneg x), le_antisymm (not_lt.1 fun h => hnp (h2.2 h)) (hq.nonneg x)⟩
  have e1 : (∫ x in region a b p q, p x) = 1 := by
    rw [int_region hp.meas hq.meas (h0.mono fun x h hx => (h hx).1), hp.one]
  have e2 : (∫ x in region a b p q, q x) = 1 := by
    rw [int_region hp.meas hq.meas (h0.mono fun x h hx => (h hx).2), hq.one]
  refine ⟨h0, fun hv => ?_, e1, e2⟩
  rw [setIntegral_measure_zero _ hv] at e1
  exact zero_ne_one e1

/-- **C111**, the case in which the metric is right: if `p` vanishes outside its support box and `p` and `q` are positive
at the same points, up to sets of volume 0, and the true divergence is finite, the values of the metric converge to it. -/
theorem C111_partial_same_support (a b : Fin d → ℝ) (hab : ∀ k, a k < b k) (p q : (Fin d → ℝ) → ℝ)
    (hp : Density p) (hq : Density q) (hbox : ∀ᵐ x, x ∉ box a b → p x = 0) (hsup : ∀ᵐ x, 0 < p x ↔ 0 < q x)
    (hfin : InformationTheory.klDiv (lawOf p) (lawOf q) ≠ ⊤) :
    ∀ᵐ ω ∂(uniformStream d), ∃ v : ℕ → ℝ,
      (∀ n, 0 < n → kl (fun x => XF.log (.fin (p x))) (fun x => XF.log (.fin (q x))) a b ω n = .ok (.fin (v n))) ∧
      Tendsto v atTop (𝓝 (InformationTheory.klDiv (lawOf p) (lawOf q)).toReal) := by
  obtain ⟨h0, hv, e1, e2⟩ := same_support hp hq hbox hsup
  obtain ⟨hi, hk⟩ := klDiv_lawOf hp hq (hsup.mono fun x h => h.1) hfin
  have := C111_partial_limit a b hab p q hp.meas hq.meas hp.int.integrableOn hq.int.integrableOn hv hi.integrableOn
  rw [klOn_eq (measurableSet_region hp.meas hq.meas) (fun x hx => hx.2) hp.int.integrableOn hi.integrableOn
    (by rw [e1]; exact one_pos) (by rw [e2]; exact one_pos), e1, e2,
    int_region hp.meas hq.meas (h0.mono fun x h hx => by rw [(h hx).1, zero_mul]), ← hk] at this
  simpa using this

/-! ### C112 Jensen-Shannon -/

theorem sum_dist {r : List (ℝ × ℝ)} (h : KL.Pos r) {c c' : ℝ} (hc : 0 < c) (hc' : 0 < c') :
    |(r.map (jsP c)).sum - (r.map (jsP c')).sum| ≤ (r.map Prod.fst).sum * |Real.log c - Real.log c'| ∧
    |(r.map (jsQ c)).sum - (r.map (jsQ c')).sum| ≤ (r.map Prod.snd).sum * |Real.log c - Real.log c'| := by
  induction r with
  | nil => simp
  | cons x r ih =>
    have ih := ih fun y hy => h y (List.mem_cons_of_mem _ hy)
    obtain ⟨hp, hq⟩ := h x List.mem_cons_self
    obtain ⟨l1, l2⟩ := log_ratio hp hq hc hc'
    simp only [List.map_cons, List.sum_cons]
    constructor
    · have e : jsP c x - jsP c' x = x.1 * (Real.log (2 * x.1 / (x.1 + c * x.2)) - Real.log (2 * x.1 / (x.1 + c' * x.2))) := by
        unfold jsP; ring
      calc _ = |(jsP c x - jsP c' x) + ((r.map (jsP c)).sum - (r.map (jsP c')).sum)| := by congr 1; ring
        _ ≤ |jsP c x - jsP c' x| + |(r.map (jsP c)).sum - (r.map (jsP c')).sum| := abs_add_le _ _
        _ ≤ _ := by
          rw [e, abs_mul, abs_of_pos hp, add_mul]
          exact add_le_add (mul_le_mul_of_nonneg_left l1 hp.le) ih.1
    · have e : jsQ c x - jsQ c' x =
          x.2 * (Real.log (2 * c * x.2 / (x.1 + c * x.2)) - Real.log (2 * c' * x.2 / (x.1 + c' * x.2))) := by
        unfold jsQ; ring
      calc _ = |(jsQ c x - jsQ c' x) + ((r.map (jsQ c)).sum - (r.map (jsQ c')).sum)| := by congr 1; ring
        _ ≤ |jsQ c x - jsQ c' x| + |(r.map (jsQ c)).sum - (r.map (jsQ c')).sum| := abs_add_le _ _
        _ ≤ _ := by
          rw [e, abs_mul, abs_of_pos hq, add_mul]
          exact add_le_add (mul_le_mul_of_nonneg_left l2 hq.le) ih.2

/-- A sequence that stays close to a convergent one. -/
theorem tendsto_of_close {f g e : ℕ → ℝ} {L : ℝ} (hg : Tendsto g atTop (𝓝 L)) (he : Tendsto e atTop (𝓝 0))
    (h : ∀ᶠ n in atTop, |f n - g n| ≤ e n) : Tendsto f atTop (𝓝 L) := by
  have h0 : Tendsto (fun n => f n - g n) atTop (𝓝 0) := squeeze_zero_norm' (by simpa using h) he
  simpa using h0.add hg

theorem jsOn_eq {A : Set (Fin d → ℝ)} {p q : (Fin d → ℝ) → ℝ} (hA : MeasurableSet A) (hpos : ∀ x ∈ A, 0 < p x ∧ 0 < q x)
    (hP : 0 < ∫ x in A, p x) (hQ : 0 < ∫ x in A, q x)
    (h1 : IntegrableOn (fun x => jsP ((∫ x in A, p x) / ∫ x in A, q x) (p x, q x)) A)
    (h2 : IntegrableOn (fun x => jsQ ((∫ x in A, p x) / ∫ x in A, q x) (p x, q x)) A) :
    jsOn A p q = (1/2 * ((∫ x in A, jsP ((∫ x in A, p x) / ∫ x in A, q x) (p x, q x)) / ∫ x in A, p x) +
      1/2 * ((∫ x in A, jsQ ((∫ x in A, p x) / ∫ x in A, q x) (p x, q x)) / ∫ x in A, q x)) / Real.log 2 := by
  unfold jsOn
  obtain ⟨P, hPe⟩ : ∃ P, P = ∫ x in A, p x := ⟨_, rfl⟩
  obtain ⟨Q, hQe⟩ : ∃ Q, Q = ∫ x in A, q x := ⟨_, rfl⟩
  rw [← hPe] at hP h1 h2 ⊢
  rw [← hQe] at hQ h1 h2 ⊢
  congr 1
  have e : ∀ x ∈ A, 1/2 * (p x / P) * Real.log (p x / P / (1/2 * (p x / P + q x / Q))) +
      1/2 * (q x / Q) * Real.log (q x / Q / (1/2 * (p x / P + q x / Q))) =
      1/2 * P⁻¹ * jsP (P / Q) (p x, q x) + 1/2 * Q⁻¹ * jsQ (P / Q) (p x, q x) := by
    intro x hx
    obtain ⟨hp, hq⟩ := hpos x hx
    have a1 : p x / P / (1/2 * (p x / P + q x / Q)) = 2 * p x / (p x + P / Q * q x) := by
      field_simp
    have a2 : q x / Q / (1/2 * (p x / P + q x / Q)) = 2 * (P / Q) * q x / (p x + P / Q * q x) := by
      field_simp
    rw [a1, a2]
    unfold jsP jsQ
    ring
  rw [setIntegral_congr_fun hA e, integral_add (h1.const_mul _) (h2.const_mul _), integral_const_mul, integral_const_mul]
  ring

theorem jsP_measurable (c : ℝ) : Measurable (jsP c) := by
  unfold jsP
  fun_prop

theorem jsQ_measurable (c : ℝ) : Measurable (jsQ c) := by
  unfold jsQ
  fun_prop

theorem js_integrable {a b : Fin d → ℝ} {p q : (Fin d → ℝ) → ℝ} (hp : Measurable p) (hq : Measurable q)
    (hpA : IntegrableOn p (region a b p q)) (hqA : IntegrableOn q (region a b p q)) {c : ℝ} (hc : 0 < c) :
    IntegrableOn (fun x => jsP c (p x, q x)) (region a b p q) ∧ IntegrableOn (fun x => jsQ c (p x, q x)) (region a b p q) := by
  have hA := measurableSet_region (a := a) (b := b) hp hq
  constructor
  · refine Integrable.mono' (hpA.add (hqA.const_mul c)) ((jsP_measurable c).comp (hp.prodMk hq)).aestronglyMeasurable ?_
    exact (ae_restrict_iff' hA).2 (Eventually.of_forall fun x hx => jsP_bound hx.2.1 hx.2.2 hc)
  · refine Integrable.mono' (hqA.add (hpA.div_const c)) ((jsQ_measurable c).comp (hp.prodMk hq)).aestronglyMeasurable ?_
    exact (ae_restrict_iff' hA).2 (Eventually.of_forall fun x hx => jsQ_bound hx.2.1 hx.2.2 hc)

/-- **C112** Limit of the Jensen-Shannon metric. Let `p` and `q` be measurable, integrable on the support box of `p` and
both positive on a set of positive volume. For almost every stream of random numbers every value of the metric is a finite
number, and the values converge to the Jensen-Shannon divergence of the two densities conditioned on the part of the box
where both are positive. -/
theorem C112_partial_limit (a b : Fin d → ℝ) (hab : ∀ k, a k < b k) (p q : (Fin d → ℝ) → ℝ)
    (hp : Measurable p) (hq : Measurable q) (hpi : IntegrableOn p (box a b)) (hqi : IntegrableOn q (box a b))
    (hv : volume (region a b p q) ≠ 0) :
    ∀ᵐ ω ∂(uniformStream d), ∃ v : ℕ → ℝ,
      (∀ n, 0 < n → jsd (fun x => .fin (p x)) (fun x => .fin (q x)) a b ω n = .ok (.fin (v n))) ∧
      Tendsto v atTop (𝓝 (jsOn (region a b p q) p q)) := by
  have hA := measurableSet_region (a := a) (b := b) hp hq
  have hsub : region a b p q ⊆ box a b := fun x hx => hx.1
  have hpA := hpi.mono_set hsub
  have hqA := hqi.mono_set hsub
  have hP := region_int_pos hp hq hv p (fun x hx => hx.2.1) hpA
  have hQ := region_int_pos hp hq hv q (fun x hx => hx.2.2) hqA
  have hV := vol_pos hab
  have hc := div_pos hP hQ
  obtain ⟨i1, i2⟩ := js_integrable hp hq hpA hqA hc
  filter_upwards [avg_common hab hp hq Prod.fst measurable_fst hpA, avg_common hab hp hq Prod.snd measurable_snd hqA,
    avg_common hab hp hq _ (jsP_measurable _) i1, avg_common hab hp hq _ (jsQ_measurable _) i2] with ω h1 h2 h3 h4
  refine ⟨fun n => JSD.real (common (vals p q a b ω n)) / Real.log 2, fun n hn => jsd_val p q a b ω n hn, ?_⟩
  rw [jsOn_eq hA (fun x hx => hx.2) hP hQ i1 i2]
  refine Tendsto.div_const ?_ _
  obtain ⟨c, hce⟩ : ∃ c, c = (∫ x in region a b p q, p x) / ∫ x in region a b p q, q x := ⟨_, rfl⟩
  rw [← hce] at h3 h4 hc ⊢
  obtain ⟨r, hr⟩ : ∃ r : ℕ → List (ℝ × ℝ), r = fun n => common (vals p q a b ω n) := ⟨_, rfl⟩
  have hrn : ∀ n, common (vals p q a b ω n) = r n := fun n => by rw [hr]
  have hpos : ∀ n, KL.Pos (r n) := fun n => hrn n ▸ common_pos _
  have hne := common_ne_nil (div_pos hP hV) h1
  simp only [hrn] at h1 h2 h3 h4 hne ⊢
  have hcn : Tendsto (fun n => ((r n).map Prod.fst).sum / ((r n).map Prod.snd).sum) atTop (𝓝 c) := by
    have := h1.div h2 (div_pos hQ hV).ne'
    rw [div_div_div_cancel_right₀ hV.ne', ← hce] at this
    refine this.congr' ?_
    filter_upwards [hne] with n hn
    have hn0 : (n : ℝ) ≠ 0 := by exact_mod_cast hn.1.ne'
    simp only [Pi.div_apply]
    rw [div_div_div_cancel_right₀ hn0]
  have herr : Tendsto (fun n => |Real.log (((r n).map Prod.fst).sum / ((r n).map Prod.snd).sum) - Real.log c|) atTop (𝓝 0) := by
    have := ((hcn.log hc.ne').sub_const (Real.log c)).abs
    simpa using this
  have t3 : Tendsto (fun n => ((r n).map (jsP c)).sum / ((r n).map Prod.fst).sum) atTop
      (𝓝 ((∫ x in region a b p q, jsP c (p x, q x)) / ∫ x in region a b p q, p x)) := by
    have := h3.div h1 (div_pos hP hV).ne'
    rw [div_div_div_cancel_right₀ hV.ne'] at this
    refine this.congr' ?_
    filter_upwards [hne] with n hn
    have hn0 : (n : ℝ) ≠ 0 := by exact_mod_cast hn.1.ne'
    simp only [Pi.div_apply]
    rw [div_div_div_cancel_right₀ hn0]
  have t4 : Tendsto (fun n => ((r n).map (jsQ c)).sum / ((r n).map Prod.snd).sum) atTop
      (𝓝 ((∫ x in region a b p q, jsQ c (p x, q x)) / ∫ x in region a b p q, q x)) := by
    have := h4.div h2 (div_pos hQ hV).ne'
    rw [div_div_div_cancel_right₀ hV.ne'] at this
    refine this.congr' ?_
    filter_upwards [hne] with n hn
    have hn0 : (n : ℝ) ≠ 0 := by exact_mod_cast hn.1.ne'
    simp only [Pi.div_apply]
    rw [div_div_div_cancel_right₀ hn0]
  have u3 := tendsto_of_close (f := fun n => ((r n).map (jsP (((r n).map Prod.fst).sum / ((r n).map Prod.snd).sum))).sum /
    ((r n).map Prod.fst).sum) t3 herr (by
      filter_upwards [hne] with n hn
      have s1 := (hpos n).sum_fst hn.2
      have s2 := (hpos n).sum_snd hn.2
      rw [← sub_div, abs_div, abs_of_pos s1, div_le_iff₀ s1, mul_comm]
      exact (sum_dist (hpos n) (div_pos s1 s2) hc).1)
  have u4 := tendsto_of_close (f := fun n => ((r n).map (jsQ (((r n).map Prod.fst).sum / ((r n).map Prod.snd).sum))).sum /
    ((r n).map Prod.snd).sum) t4 herr (by
      filter_upwards [hne] with n hn
      have s1 := (hpos n).sum_fst hn.2
      have s2 := (hpos n).sum_snd hn.2
      rw [← sub_div, abs_div, abs_of_pos s2, div_le_iff₀ s2, mul_comm]
      exact (sum_dist (hpos n) (div_pos s1 s2) hc).2)
  refine ((u3.const_mul (1/2)).add (u4.const_mul (1/2))).congr' ?_
  filter_upwards [hne] with n hn
  rw [js_real_eq (hpos n) hn.2]

/-- **C112**, the case in which the metric is right: if `p` vanishes outside its support box and `p` and `q` are positive
at the same points, up to sets of volume 0, the values converge to the Jensen-Shannon divergence. -/
theorem C112_partial_same_support (a b : Fin d → ℝ) (hab : ∀ k, a k < b k) (p q : (Fin d → ℝ) → ℝ)
    (hp : Density p) (hq : Density q) (hbox : ∀ᵐ x, x ∉ box a b → p x = 0) (hsup : ∀ᵐ x, 0 < p x ↔ 0 < q x) :
    ∀ᵐ ω ∂(uniformStream d), ∃ v : ℕ → ℝ,
      (∀ n, 0 < n → jsd (fun x => .fin (p x)) (fun x => .fin (q x)) a b ω n = .ok (.fin (v n))) ∧
      Tendsto v atTop (𝓝 (jsDiv p q)) := by
  obtain ⟨h0, hv, e1, e2⟩ := same_support hp hq hbox hsup
  have := C112_partial_limit a b hab p q hp.meas hq.meas hp.int.integrableOn hq.int.integrableOn hv
  unfold jsOn at this
  rw [e1, e2] at this
  simp only [div_one] at this
  rw [int_region hp.meas hq.meas (h0.mono fun x h hx => by rw [(h hx).1, (h hx).2]; simp)] at this
  exact this

/-! ### C113 error of the expected value -/

/-- Mean of the density `p` conditioned on the region `A`. -/
noncomputable def meanOn (A : Set (Fin d → ℝ)) (p : (Fin d → ℝ) → ℝ) (i : Fin d) : ℝ :=
  (∫ x in A, x i * p x) / ∫ x in A, p x

/-- Mean of the density `p`. -/
noncomputable def mean (p : (Fin d → ℝ) → ℝ) (i : Fin d) : ℝ := ∫ x, x i * p x

theorem evmse_val (p q : (Fin d → ℝ) → ℝ) (a b : Fin d → ℝ) (u : ℕ → Fin d → ℝ) (n : ℕ)
    (hP : 0 < ∑ k ∈ Finset.range n, p (pt a b (u k))) (hQ : 0 < ∑ k ∈ Finset.range n, q (pt a b (u k))) :
    evmse (fun x => .fin (p x)) (fun x => .fin (q x)) a b u n =
      .fin (∑ i, ((∑ k ∈ Finset.range n, pt a b (u k) i * p (pt a b (u k))) / (∑ k ∈ Finset.range n, p (pt a b (u k))) -
        (∑ k ∈ Finset.range n, pt a b (u k) i * q (pt a b (u k))) / (∑ k ∈ Finset.range n, q (pt a b (u k)))) ^ 2) := by
  have h := evmse_eq ((evalSamples a b u n).map fun x => (x, p x, q x))
  simp only [evalSamples_eq, weightedMean, List.map_map, Function.comp_def, sum_range_map] at h
  have h := h hP.ne' hQ.ne'
  rw [← h]
  unfold evmse Verif.evmse
  rw [evalSamples_eq]
  simp only [List.map_map]
  rfl

theorem coord_integrable {a b : Fin d → ℝ} {p : (Fin d → ℝ) → ℝ} (hp : Measurable p) (hpi : IntegrableOn p (box a b)) (i : Fin d) :
    IntegrableOn (fun x => x i * p x) (box a b) := by
  refine Integrable.bdd_mul (c := max |a i| |b i|) hpi (measurable_pi_apply i).aestronglyMeasurable ?_
  refine (ae_restrict_iff' (measurableSet_box a b)).2 (Eventually.of_forall fun x hx => ?_)
  have := hx i (mem_univ i)
  rw [Real.norm_eq_abs]
  exact abs_le_max_abs_abs this.1 this.2.le

/-- **C113** Limit of the expected value metric. Let `p` and `q` be measurable and integrable on the support box of `p`, with
positive mass there. For almost every stream of random numbers the metric is a finite number from some number of evaluation
samples on, and the values converge to the squared distance between the means of the densities conditioned on the box. -/
theorem C113_partial_limit (a b : Fin d → ℝ) (hab : ∀ k, a k < b k) (p q : (Fin d → ℝ) → ℝ)
    (hp : Measurable p) (hq : Measurable q) (hpi : IntegrableOn p (box a b)) (hqi : IntegrableOn q (box a b))
    (hP : 0 < ∫ x in box a b, p x) (hQ : 0 < ∫ x in box a b, q x) :
    ∀ᵐ ω ∂(uniformStream d), ∃ v : ℕ → ℝ,
      (∀ᶠ n in atTop, evmse (fun x => .fin (p x)) (fun x => .fin (q x)) a b ω n = .fin (v n)) ∧
      Tendsto v atTop (𝓝 (∑ i, (meanOn (box a b) p i - meanOn (box a b) q i) ^ 2)) := by
  have hV := vol_pos hab
  have hx : ∀ f : (Fin d → ℝ) → ℝ, Measurable f → IntegrableOn f (box a b) → ∀ᵐ ω ∂(uniformStream d), ∀ i : Fin d,
      Tendsto (fun n : ℕ => (∑ k ∈ Finset.range n, pt a b (ω k) i * f (pt a b (ω k))) / n) atTop
        (𝓝 ((∫ x in box a b, x i * f x) / vol a b)) := by
    intro f hf hi
    rw [ae_all_iff]
    intro i
    exact slln a b hab (fun x => x i * f x) ((measurable_pi_apply i).mul hf) (coord_integrable hf hi i)
  filter_upwards [slln a b hab p hp hpi, slln a b hab q hq hqi, hx p hp hpi, hx q hq hqi] with ω h1 h2 h3 h4
  have pos : ∀ {f : (Fin d → ℝ) → ℝ} {L : ℝ}, 0 < L →
      Tendsto (fun n : ℕ => (∑ k ∈ Finset.range n, f (pt a b (ω k))) / n) atTop (𝓝 L) →
      ∀ᶠ n : ℕ in atTop, 0 < n ∧ 0 < ∑ k ∈ Finset.range n, f (pt a b (ω k)) := by
    intro f L hL h
    filter_upwards [h.eventually (lt_mem_nhds hL), eventually_gt_atTop 0] with n hn h0
    exact ⟨h0, (div_pos_iff_of_pos_right (by exact_mod_cast h0)).1 hn⟩
  have e1 := pos (div_pos hP hV) h1
  have e2 := pos (div_pos hQ hV) h2
  refine ⟨fun n => ∑ i, ((∑ k ∈ Finset.range n, pt a b (ω k) i * p (pt a b (ω k))) / (∑ k ∈ Finset.range n, p (pt a b (ω k))) -
        (∑ k ∈ Finset.range n, pt a b (ω k) i * q (pt a b (ω k))) / (∑ k ∈ Finset.range n, q (pt a b (ω k)))) ^ 2, ?_, ?_⟩
  · filter_upwards [e1, e2] with n h1 h2
    exact evmse_val p q a b ω n h1.2 h2.2
  · refine tendsto_finsetSum _ fun i _ => (Tendsto.sub ?_ ?_).pow 2
    · have := (h3 i).div h1 (div_pos hP hV).ne'
      rw [div_div_div_cancel_right₀ hV.ne'] at this
      refine this.congr' ?_
      filter_upwards [e1] with n hn
      have hn0 : (n : ℝ) ≠ 0 := by exact_mod_cast hn.1.ne'
      simp only [Pi.div_apply]
      rw [div_div_div_cancel_right₀ hn0]
    · have := (h4 i).div h2 (div_pos hQ hV).ne'
      rw [div_div_div_cancel_right₀ hV.ne'] at this
      refine this.congr' ?_
      filter_upwards [e2] with n hn
      have hn0 : (n : ℝ) ≠ 0 := by exact_mod_cast hn.1.ne'
      simp only [Pi.div_apply]
      rw [div_div_div_cancel_right₀ hn0]

/-- **C113**, the case in which the metric is right: if both densities vanish outside the support box of `p`, up to sets of
volume 0, the values converge to the squared distance between the two means. -/
theorem C113_partial_inside (a b : Fin d → ℝ) (hab : ∀ k, a k < b k) (p q : (Fin d → ℝ) → ℝ)
    (hp : Density p) (hq : Density q) (hpb : ∀ᵐ x, x ∉ box a b → p x = 0) (hqb : ∀ᵐ x, x ∉ box a b → q x = 0) :
    ∀ᵐ ω ∂(uniformStream d), ∃ v : ℕ → ℝ,
      (∀ᶠ n in atTop, evmse (fun x => .fin (p x)) (fun x => .fin (q x)) a b ω n = .fin (v n)) ∧
      Tendsto v atTop (𝓝 (∑ i, (mean p i - mean q i) ^ 2)) := by
  have e : ∀ {f : (Fin d → ℝ) → ℝ}, (∀ᵐ x, x ∉ box a b → f x = 0) → ∫ x in box a b, f x = ∫ x, f x :=
    fun h => setIntegral_eq_integral_of_ae_compl_eq_zero h
  have h := C113_partial_limit a b hab p q hp.meas hq.meas hp.int.integrableOn hq.int.integrableOn
    (by rw [e hpb, hp.one]; exact one_pos) (by rw [e hqb, hq.one]; exact one_pos)
  unfold meanOn at h
  rw [e hpb, e hqb, hp.one, hq.one] at h
  simp only [div_one] at h
  have e1 : ∀ i, ∫ x in box a b, x i * p x = mean p i := fun i => e (hpb.mono fun x h hx => by rw [h hx, mul_zero])
  have e2 : ∀ i, ∫ x in box a b, x i * q x = mean q i := fun i => e (hqb.mono fun x h hx => by rw [h hx, mul_zero])
  simpa only [e1, e2] using h

/-! ### Densities with mass outside the support of the other -/

/-- The uniform density on a box. -/
noncomputable def unif (a b : Fin d → ℝ) : (Fin d → ℝ) → ℝ := (box a b).indicator fun _ => (vol a b)⁻¹

theorem volume_box (a b : Fin d → ℝ) (hab : ∀ k, a k < b k) : volume.real (box a b) = vol a b := by
  unfold box vol
  rw [measureReal_def, Real.volume_pi_Ico, ENNReal.toReal_prod]
  exact Finset.prod_congr rfl fun k _ => ENNReal.toReal_ofReal (sub_pos.2 (hab k)).le

theorem integral_box_const (a b : Fin d → ℝ) (hab : ∀ k, a k < b k) (c : ℝ) :
    Integrable ((box a b).indicator fun _ => c) ∧ ∫ x, (box a b).indicator (fun _ => c) x = vol a b * c := by
  have hfin : volume (box a b) ≠ ⊤ := by
    unfold box
    rw [Real.volume_pi_Ico]
    exact ENNReal.prod_ne_top fun _ _ => ENNReal.ofReal_ne_top
  constructor
  · exact (integrable_indicator_iff (measurableSet_box a b)).2 (integrableOn_const hfin)
  · rw [integral_indicator (measurableSet_box a b), setIntegral_const, volume_box a b hab, smul_eq_mul]

theorem unif_density (a b : Fin d → ℝ) (hab : ∀ k, a k < b k) : Density (unif a b) where
  meas := measurable_const.indicator (measurableSet_box a b)
  nonneg x := indicator_nonneg (fun _ _ => (inv_pos.2 (vol_pos hab)).le) x
  int := (integral_box_const a b hab _).1
  one := by
    unfold unif
    rw [(integral_box_const a b hab _).2, mul_inv_cancel₀ (vol_pos hab).ne']

theorem pt_mem_box {a b : Fin d → ℝ} (hab : ∀ k, a k < b k) {u : Fin d → ℝ} (hu : u ∈ unitCube d) : pt a b u ∈ box a b := by
  intro k _
  have h := hu k (mem_univ k)
  have := sub_pos.2 (hab k)
  refine ⟨?_, ?_⟩ <;> simp only [pt, npUniform]
  · nlinarith [h.1]
  · nlinarith [h.2]

/-- The densities are constant multiples of each other where both are positive. -/
theorem unif_proportional {a b c e : Fin d → ℝ} (hab : ∀ k, a k < b k) (hce : ∀ k, c k < e k) (x : Fin d → ℝ)
    (h1 : 0 < unif a b x) (h2 : 0 < unif c e x) : unif c e x = vol a b / vol c e * unif a b x := by
  have m1 : x ∈ box a b := by
    by_contra h
    simp [unif, h] at h1
  have m2 : x ∈ box c e := by
    by_contra h
    simp [unif, h] at h2
  have := vol_pos hab
  have := vol_pos hce
  simp only [unif, indicator_of_mem m1, indicator_of_mem m2]
  field_simp

theorem common_proportional {a b c e : Fin d → ℝ} (hab : ∀ k, a k < b k) (hce : ∀ k, c k < e k) (a' b' : Fin d → ℝ)
    (u : ℕ → Fin d → ℝ) (n : ℕ) :
    ∃ m, 0 < m ∧ ∀ x ∈ common (vals (unif a b) (unif c e) a' b' u n), x.2 = m * x.1 := by
  refine ⟨_, div_pos (vol_pos hab) (vol_pos hce), fun x hx => ?_⟩
  have hpos := common_pos _ x hx
  obtain ⟨y, -, rfl⟩ := List.mem_map.1 (List.mem_filter.1 hx).1
  exact unif_proportional hab hce y hpos.1 hpos.2

/-- Two uniform densities: the KL metric and the Jensen-Shannon metric are 0, whatever the boxes and the random numbers. -/
theorem unif_zero {a b c e : Fin d → ℝ} (hab : ∀ k, a k < b k) (hce : ∀ k, c k < e k) (a' b' : Fin d → ℝ)
    (u : ℕ → Fin d → ℝ) (n : ℕ) (hn : 0 < n) :
    kl (fun x => XF.log (.fin (unif a b x))) (fun x => XF.log (.fin (unif c e x))) a' b' u n = .ok (.fin 0) ∧
    jsd (fun x => .fin (unif a b x)) (fun x => .fin (unif c e x)) a' b' u n = .ok (.fin 0) := by
  have h := common_proportional hab hce a' b' u n
  rw [kl_val _ _ _ _ _ _ hn, jsd_val _ _ _ _ _ _ hn, (KL.real_eq_zero (common_pos _)).2 h,
    (JSD.real_facts (common_pos _)).2.2.2 h, zero_div]
  exact ⟨rfl, rfl⟩

theorem box_mono {a b b' : Fin d → ℝ} (h : ∀ k, b k ≤ b' k) : box a b ⊆ box a b' :=
  fun _ hx k hk => ⟨(hx k hk).1, (hx k hk).2.trans_le (h k)⟩

theorem unif_pos_iff {a b : Fin d → ℝ} (hab : ∀ k, a k < b k) (x : Fin d → ℝ) : 0 < unif a b x ↔ x ∈ box a b := by
  constructor
  · intro h
    by_contra hx
    simp [unif, hx] at h
  · intro h
    simp only [unif, indicator_of_mem h]
    exact inv_pos.2 (vol_pos hab)

/-- **C111**, the values do not converge to the KL divergence of the densities. For uniform densities on a box and on a
larger box with the same lower corner, and every outcome of the generator, the metric of the smaller against the larger
is 0 for every number of evaluation samples although the divergence is the logarithm of the ratio of the volumes; the metric of
the larger against the smaller is 0 although the divergence is infinite when the larger box has a larger volume. -/
theorem C111_refuted (a b b' : Fin d → ℝ) (hab : ∀ k, a k < b k) (hb : ∀ k, b k ≤ b' k) (u : ℕ → Fin d → ℝ) :
    Density (unif a b) ∧ Density (unif a b') ∧
    (∀ n, 0 < n → kl (fun x => XF.log (.fin (unif a b x))) (fun x => XF.log (.fin (unif a b' x))) a b u n = .ok (.fin 0)) ∧
    InformationTheory.klDiv (lawOf (unif a b)) (lawOf (unif a b')) =
      ENNReal.ofReal (Real.log ((∏ k, (b' k - a k)) / ∏ k, (b k - a k))) ∧
    (∀ n, 0 < n → kl (fun x => XF.log (.fin (unif a b' x))) (fun x => XF.log (.fin (unif a b x))) a b' u n = .ok (.fin 0)) ∧
    ((∃ k, b k < b' k) → InformationTheory.klDiv (lawOf (unif a b')) (lawOf (unif a b)) = ⊤) := by
  have hab' : ∀ k, a k < b' k := fun k => (hab k).trans_le (hb k)
  have d1 := unif_density a b hab
  have d2 := unif_density a b' hab'
  have hv := vol_pos hab
  have hv' := vol_pos hab'
  refine ⟨d1, d2, fun n hn => (unif_zero hab hab' a b u n hn).1, ?_, fun n hn => (unif_zero hab' hab a b' u n hn).1, ?_⟩
  · have hpq : ∀ᵐ x, 0 < unif a b x → 0 < unif a b' x := Eventually.of_forall fun x => by
      rw [unif_pos_iff hab, unif_pos_iff hab']
      exact fun h => box_mono hb h
    obtain ⟨hac, hllr⟩ := llr_lawOf d1.meas d2.meas d1.nonneg d2.nonneg hpq
    have e : (fun x => unif a b x * Real.log (unif a b x / unif a b' x)) =
        (box a b).indicator fun _ => (vol a b)⁻¹ * Real.log (vol a b' / vol a b) := by
      funext x
      by_cases hx : x ∈ box a b
      · simp only [unif, indicator_of_mem hx, indicator_of_mem (box_mono hb hx)]
        congr 2
        field_simp
      · simp [unif, hx]
    have hconst : (fun x => Real.log (unif a b x / unif a b' x)) =ᵐ[lawOf (unif a b)] fun _ => Real.log (vol a b' / vol a b) := by
      have : ∀ᵐ x ∂(lawOf (unif a b)), x ∈ box a b := by
        rw [ae_iff]
        show lawOf (unif a b) (box a b)ᶜ = 0
        unfold lawOf
        rw [withDensity_apply _ (measurableSet_box a b).compl]
        refine setLIntegral_eq_zero (measurableSet_box a b).compl fun x hx => ?_
        have hx : x ∉ box a b := hx
        simp [unif, hx]
      filter_upwards [this] with x hx
      simp only [unif, indicator_of_mem hx, indicator_of_mem (box_mono hb hx)]
      congr 1
      field_simp
    have f1 : IsFiniteMeasure (lawOf (unif a b)) := ⟨by rw [lawOf_univ d1]; exact ENNReal.one_lt_top⟩
    have f2 : IsFiniteMeasure (lawOf (unif a b')) := ⟨by rw [lawOf_univ d2]; exact ENNReal.one_lt_top⟩
    have hi : Integrable (llr (lawOf (unif a b)) (lawOf (unif a b'))) (lawOf (unif a b)) :=
      (integrable_const _).congr (hllr.trans hconst).symm
    have hne : InformationTheory.klDiv (lawOf (unif a b)) (lawOf (unif a b')) ≠ ⊤ :=
      InformationTheory.klDiv_ne_top hac hi
    rw [← ENNReal.ofReal_toReal hne, (klDiv_lawOf d1 d2 hpq hne).2, e, (integral_box_const a b hab _).2, ← mul_assoc,
      mul_inv_cancel₀ hv.ne', one_mul]
    rfl
  · rintro ⟨k, hk⟩
    apply InformationTheory.klDiv_of_not_ac
    intro hac
    have h0 : lawOf (unif a b) (box a b)ᶜ = 0 := by
      unfold lawOf
      rw [withDensity_apply _ (measurableSet_box a b).compl]
      refine setLIntegral_eq_zero (measurableSet_box a b).compl fun x hx => ?_
      have hx : x ∉ box a b := hx
      simp [unif, hx]
    have h1 := hac h0
    unfold lawOf at h1
    rw [withDensity_apply _ (measurableSet_box a b).compl, setLIntegral_eq_zero_iff (measurableSet_box a b).compl
      d2.meas.ennreal_ofReal] at h1
    have h2 : ∀ᵐ x, x ∉ box a b' \ box a b := by
      filter_upwards [h1] with x hx hm
      have := hx hm.2
      rw [ENNReal.ofReal_eq_zero] at this
      exact absurd ((unif_pos_iff hab' x).2 hm.1) (not_lt.2 this)
    have h3 : volume (box a b' \ box a b) = 0 := by
      rw [ae_iff] at h2
      simp only [not_not] at h2
      exact h2
    have h4 : volume (box a b') ≤ volume (box a b) := by
      calc _ ≤ volume (box a b ∪ (box a b' \ box a b)) := measure_mono (by intro x hx; by_cases h : x ∈ box a b <;> simp [h, hx])
        _ ≤ volume (box a b) + volume (box a b' \ box a b) := measure_union_le _ _
        _ = _ := by rw [h3, add_zero]
    have h5 : vol a b' ≤ vol a b := by
      rw [← volume_box a b hab, ← volume_box a b' hab']
      refine ENNReal.toReal_mono ?_ h4
      unfold box
      rw [Real.volume_pi_Ico]
      exact ENNReal.prod_ne_top fun _ _ => ENNReal.ofReal_ne_top
    refine absurd h5 (not_le.2 ?_)
    unfold vol
    exact Finset.prod_lt_prod (fun i _ => sub_pos.2 (hab i)) (fun i _ => sub_le_sub_right (hb i) _)
      ⟨k, Finset.mem_univ k, sub_lt_sub_right hk _⟩

/-- The unit interval and the interval of length 2. -/
example (u : ℕ → Fin 1 → ℝ) :
    (∀ n, 0 < n → kl (fun x => XF.log (.fin (unif (fun _ : Fin 1 => 0) (fun _ => 1) x)))
      (fun x => XF.log (.fin (unif (fun _ => 0) (fun _ => 2) x))) (fun _ => 0) (fun _ => 1) u n = .ok (.fin 0)) ∧
    InformationTheory.klDiv (lawOf (unif (fun _ : Fin 1 => 0) (fun _ => 1))) (lawOf (unif (fun _ => 0) (fun _ => 2))) =
      ENNReal.ofReal (Real.log 2) ∧
    InformationTheory.klDiv (lawOf (unif (fun _ : Fin 1 => 0) (fun _ => 2))) (lawOf (unif (fun _ => 0) (fun _ => 1))) = ⊤ := by
  obtain ⟨-, -, h1, h2, -, h3⟩ := C111_refuted (fun _ : Fin 1 => (0 : ℝ)) (fun _ => 1) (fun _ => 2) (by simp) (by simp) u
  refine ⟨h1, ?_, h3 ⟨0, by norm_num⟩⟩
  rw [h2]
  norm_num

/-- **C112**, the values do not converge to the Jensen-Shannon divergence of the densities: for the uniform densities on
`[0, 1)` and `[0, 2)` and every outcome of the generator the metric is 0 for every number of evaluation samples, the
divergence is `3/4 log (4/3) / log 2`. -/
theorem C112_refuted (u : ℕ → Fin 1 → ℝ) :
    (∀ n, 0 < n → jsd (fun x => .fin (unif (fun _ : Fin 1 => 0) (fun _ => 1) x))
      (fun x => .fin (unif (fun _ => 0) (fun _ => 2) x)) (fun _ => 0) (fun _ => 1) u n = .ok (.fin 0)) ∧
    jsDiv (unif (fun _ : Fin 1 => 0) (fun _ => 1)) (unif (fun _ => 0) (fun _ => 2)) =
      3/4 * Real.log (4/3) / Real.log 2 ∧
    0 < jsDiv (unif (fun _ : Fin 1 => 0) (fun _ => 1)) (unif (fun _ => 0) (fun _ => 2)) := by
  have hab : ∀ _ : Fin 1, (0 : ℝ) < 1 := fun _ => one_pos
  have hab' : ∀ _ : Fin 1, (0 : ℝ) < 2 := fun _ => two_pos
  have hv : vol (fun _ : Fin 1 => (0 : ℝ)) (fun _ => 1) = 1 := by simp [vol]
  have hv' : vol (fun _ : Fin 1 => (0 : ℝ)) (fun _ => 2) = 2 := by simp [vol]
  have e : (fun x => 1/2 * unif (fun _ : Fin 1 => 0) (fun _ => 1) x * Real.log (unif (fun _ : Fin 1 => 0) (fun _ => 1) x /
        (1/2 * (unif (fun _ : Fin 1 => 0) (fun _ => 1) x + unif (fun _ : Fin 1 => 0) (fun _ => 2) x))) +
      1/2 * unif (fun _ : Fin 1 => 0) (fun _ => 2) x * Real.log (unif (fun _ : Fin 1 => 0) (fun _ => 2) x /
        (1/2 * (unif (fun _ : Fin 1 => 0) (fun _ => 1) x + unif (fun _ : Fin 1 => 0) (fun _ => 2) x)))) =
      (box (fun _ : Fin 1 => (0 : ℝ)) (fun _ => 1)).indicator
        (fun _ => 1/2 * Real.log (4/3) + 1/4 * Real.log (2/3) - 1/4 * Real.log 2) +
      (box (fun _ : Fin 1 => (0 : ℝ)) (fun _ => 2)).indicator (fun _ => 1/4 * Real.log 2) := by
    funext x
    have hm : x ∈ box (fun _ : Fin 1 => (0 : ℝ)) (fun _ => 1) → x ∈ box (fun _ : Fin 1 => (0 : ℝ)) (fun _ => 2) :=
      fun h => box_mono (fun _ => one_le_two) h
    by_cases h1 : x ∈ box (fun _ : Fin 1 => (0 : ℝ)) (fun _ => 1)
    · simp only [unif, Pi.add_apply, indicator_of_mem h1, indicator_of_mem (hm h1), hv, hv']
      norm_num
    · by_cases h2 : x ∈ box (fun _ : Fin 1 => (0 : ℝ)) (fun _ => 2)
      · simp only [unif, Pi.add_apply, indicator_of_notMem h1, indicator_of_mem h2, hv']
        norm_num
      · simp [unif, Pi.add_apply, h1, h2]
  have hd : jsDiv (unif (fun _ : Fin 1 => 0) (fun _ => 1)) (unif (fun _ => 0) (fun _ => 2)) =
      3/4 * Real.log (4/3) / Real.log 2 := by
    unfold jsDiv
    rw [e, integral_add' (integral_box_const _ _ hab _).1 (integral_box_const _ _ hab' _).1, (integral_box_const _ _ hab _).2,
      (integral_box_const _ _ hab' _).2, hv, hv']
    congr 1
    have : Real.log (2/3) = Real.log (4/3) - Real.log 2 := by
      rw [← Real.log_div (by norm_num) (by norm_num)]
      norm_num
    rw [this]
    ring
  refine ⟨fun n hn => (unif_zero hab hab' _ _ u n hn).2, hd, ?_⟩
  rw [hd]
  have : 0 < Real.log (4/3 : ℝ) := Real.log_pos (by norm_num)
  have : 0 < Real.log (2 : ℝ) := Real.log_pos (by norm_num)
  positivity

/-- **C113**, the values do not converge to the squared distance between the means: for the uniform densities on `[0, 1)`
and `[0, 2)` and every outcome of the generator in the unit cube the metric is 0 for every number of evaluation samples, the means
are 1/2 and 1. -/
theorem C113_refuted (u : ℕ → Fin 1 → ℝ) (hu : ∀ k, u k ∈ unitCube 1) :
    (∀ n, 0 < n → evmse (fun x => .fin (unif (fun _ : Fin 1 => 0) (fun _ => 1) x))
      (fun x => .fin (unif (fun _ => 0) (fun _ => 2) x)) (fun _ => 0) (fun _ => 1) u n = .fin 0) ∧
    ∀ i, mean (unif (fun _ : Fin 1 => 0) (fun _ => 1)) i = 1/2 ∧ mean (unif (fun _ : Fin 1 => 0) (fun _ => 2)) i = 1 := by
  have hab : ∀ _ : Fin 1, (0 : ℝ) < 1 := fun _ => one_pos
  have hab' : ∀ _ : Fin 1, (0 : ℝ) < 2 := fun _ => two_pos
  have hv : vol (fun _ : Fin 1 => (0 : ℝ)) (fun _ => 1) = 1 := by simp [vol]
  have hv' : vol (fun _ : Fin 1 => (0 : ℝ)) (fun _ => 2) = 2 := by simp [vol]
  constructor
  · intro n hn
    have hm : ∀ k, pt (fun _ => 0) (fun _ => 1) (u k) ∈ box (fun _ : Fin 1 => (0 : ℝ)) (fun _ => 1) :=
      fun k => pt_mem_box hab (hu k)
    have hp : ∀ k, unif (fun _ : Fin 1 => 0) (fun _ => 1) (pt (fun _ => 0) (fun _ => 1) (u k)) = 1 := fun k => by
      simp only [unif, indicator_of_mem (hm k), hv, inv_one]
    have hq : ∀ k, unif (fun _ : Fin 1 => 0) (fun _ => 2) (pt (fun _ => 0) (fun _ => 1) (u k)) = 1/2 := fun k => by
      simp only [unif, indicator_of_mem (box_mono (fun _ => one_le_two) (hm k)), hv']
      norm_num
    have hn' : (0 : ℝ) < n := by exact_mod_cast hn
    rw [evmse_val]
    · simp only [hp, hq, Finset.sum_const, Finset.card_range, nsmul_eq_mul, mul_one, ← Finset.sum_mul]
      congr 1
      refine Finset.sum_eq_zero fun i _ => ?_
      rw [mul_div_mul_right _ _ (by norm_num : (1/2 : ℝ) ≠ 0), sub_self]
      norm_num
    · simpa [hp] using hn
    · simp [hq]
      exact hn
  · have hmean : ∀ (c : ℝ), 0 < c → ∀ i, ∫ x in box (fun _ : Fin 1 => (0 : ℝ)) (fun _ => c), x i = c ^ 2 / 2 := by
      intro c hc i
      have hmp := volume_preserving_funUnique (Fin 1) ℝ
      have e1 : box (fun _ : Fin 1 => (0 : ℝ)) (fun _ => c) = (MeasurableEquiv.funUnique (Fin 1) ℝ) ⁻¹' (Ico 0 c) := by
        ext x
        simp [box]
      have e2 : ∀ x : Fin 1 → ℝ, x i = (MeasurableEquiv.funUnique (Fin 1) ℝ) x := by
        intro x
        rw [Subsingleton.elim i default]
        rfl
      simp_rw [e2]
      rw [e1]
      refine (hmp.setIntegral_preimage_emb (MeasurableEquiv.measurableEmbedding _) (fun y => y) (Ico 0 c)).trans ?_
      rw [integral_Ico_eq_integral_Ioc, ← intervalIntegral.integral_of_le hc.le, integral_id]
      ring
    have hmu : ∀ (c : ℝ), 0 < c → ∀ i, mean (unif (fun _ : Fin 1 => 0) (fun _ => c)) i = c / 2 := by
      intro c hc i
      have hvc : vol (fun _ : Fin 1 => (0 : ℝ)) (fun _ => c) = c := by simp [vol]
      have e : (fun x : Fin 1 → ℝ => x i * unif (fun _ : Fin 1 => 0) (fun _ => c) x) =
          (box (fun _ : Fin 1 => (0 : ℝ)) (fun _ => c)).indicator fun x => x i * c⁻¹ := by
        funext x
        by_cases hx : x ∈ box (fun _ : Fin 1 => (0 : ℝ)) (fun _ => c)
        · simp only [unif, indicator_of_mem hx, hvc]
        · simp [unif, hx]
      unfold mean
      rw [e, integral_indicator (measurableSet_box _ _), integral_mul_const, hmean c hc i]
      field_simp
    intro i
    exact ⟨hmu 1 one_pos i, by rw [hmu 2 two_pos i]; norm_num⟩

/-! ### The hypotheses can be met -/

/-- Equal mixture of two densities. -/
noncomputable def half (p q : (Fin d → ℝ) → ℝ) : (Fin d → ℝ) → ℝ := fun x => 1/2 * p x + 1/2 * q x

theorem Density.half {p q : (Fin d → ℝ) → ℝ} (hp : Density p) (hq : Density q) : Density (half p q) where
  meas := (hp.meas.const_mul _).add (hq.meas.const_mul _)
  nonneg x := add_nonneg (mul_nonneg (by norm_num) (hp.nonneg x)) (mul_nonneg (by norm_num) (hq.nonneg x))
  int := (hp.int.const_mul _).add (hq.int.const_mul _)
  one := by
    unfold MetricCompute.half
    rw [integral_add (hp.int.const_mul _) (hq.int.const_mul _), integral_const_mul, integral_const_mul, hp.one, hq.one]
    norm_num

/-- The uniform density on the unit interval. -/
noncomputable def exP : (Fin 1 → ℝ) → ℝ := unif (fun _ => 0) fun _ => 1

/-- A density with value 3/2 on the first and 1/2 on the second half of the unit interval. -/
noncomputable def exQ : (Fin 1 → ℝ) → ℝ := half exP (unif (fun _ => 0) fun _ => 1/2)

theorem exP_density : Density exP := unif_density _ _ fun _ => one_pos

theorem exQ_density : Density exQ := exP_density.half (unif_density _ _ fun _ => by norm_num)

theorem ex_box : ∀ᵐ x, x ∉ box (fun _ : Fin 1 => (0 : ℝ)) (fun _ => 1) → exP x = 0 ∧ exQ x = 0 :=
  Eventually.of_forall fun x hx => by
    have h2 : x ∉ box (fun _ : Fin 1 => (0 : ℝ)) (fun _ => 1/2) := fun h => hx (box_mono (fun _ => by norm_num) h)
    have e : exP x = 0 := by simp [exP, unif, hx]
    refine ⟨e, ?_⟩
    unfold exQ half
    rw [e]
    unfold unif
    rw [indicator_of_notMem h2]
    norm_num

theorem ex_val (x : Fin 1 → ℝ) (hx : x ∈ box (fun _ : Fin 1 => (0 : ℝ)) (fun _ => 1)) :
    exP x = 1 ∧ (exQ x = 3/2 ∨ exQ x = 1/2) := by
  have e : exP x = 1 := by
    unfold exP unif
    rw [indicator_of_mem hx]
    simp [vol]
  refine ⟨e, ?_⟩
  unfold exQ half
  rw [e]
  unfold unif
  by_cases h : x ∈ box (fun _ : Fin 1 => (0 : ℝ)) (fun _ => 1/2)
  · rw [indicator_of_mem h]
    left
    simp [vol]
    norm_num
  · rw [indicator_of_notMem h]
    right
    norm_num

theorem ex_support (x : Fin 1 → ℝ) : 0 < exP x ↔ 0 < exQ x := by
  by_cases hx : x ∈ box (fun _ : Fin 1 => (0 : ℝ)) (fun _ => 1)
  · obtain ⟨h1, h2 | h2⟩ := ex_val x hx <;> rw [h1, h2] <;> norm_num
  · have h2 : x ∉ box (fun _ : Fin 1 => (0 : ℝ)) (fun _ => 1/2) := fun h => hx (box_mono (fun _ => by norm_num) h)
    have e : exP x = 0 := by simp [exP, unif, hx]
    have e' : exQ x = 0 := by
      unfold exQ half
      rw [e]
      unfold unif
      rw [indicator_of_notMem h2]
      norm_num
    rw [e, e']

theorem ex_finite : InformationTheory.klDiv (lawOf exP) (lawOf exQ) ≠ ⊤ := by
  obtain ⟨hac, hllr⟩ := llr_lawOf exP_density.meas exQ_density.meas exP_density.nonneg exQ_density.nonneg
    (Eventually.of_forall fun x => (ex_support x).1)
  have : IsFiniteMeasure (lawOf exP) := ⟨by rw [lawOf_univ exP_density]; exact ENNReal.one_lt_top⟩
  refine InformationTheory.klDiv_ne_top hac (Integrable.congr ?_ hllr.symm)
  refine Integrable.of_bound (C := Real.log 2)
    (Real.measurable_log.comp (exP_density.meas.div exQ_density.meas)).aestronglyMeasurable (Eventually.of_forall fun x => ?_)
  rw [Real.norm_eq_abs, abs_le]
  have h0 : 0 ≤ Real.log 2 := Real.log_nonneg (by norm_num)
  by_cases hx : x ∈ box (fun _ : Fin 1 => (0 : ℝ)) (fun _ => 1)
  · obtain ⟨h1, h2 | h2⟩ := ex_val x hx <;> rw [h1, h2]
    · rw [← Real.log_inv]
      exact ⟨Real.log_le_log (by norm_num) (by norm_num), Real.log_le_log (by norm_num) (by norm_num)⟩
    · norm_num
      exact h0
  · have e : exP x = 0 := by simp [exP, unif, hx]
    rw [e, zero_div, Real.log_zero]
    exact ⟨neg_nonpos.2 h0, h0⟩

/-- The hypotheses of the three positive theorems hold for two different densities with the same support. -/
example : (∀ᵐ ω ∂(uniformStream 1), ∃ v : ℕ → ℝ,
      (∀ n, 0 < n → kl (fun x => XF.log (.fin (exP x))) (fun x => XF.log (.fin (exQ x))) (fun _ => 0) (fun _ => 1) ω n =
        .ok (.fin (v n))) ∧
      Tendsto v atTop (𝓝 (InformationTheory.klDiv (lawOf exP) (lawOf exQ)).toReal)) ∧
    (∀ᵐ ω ∂(uniformStream 1), ∃ v : ℕ → ℝ,
      (∀ n, 0 < n → jsd (fun x => .fin (exP x)) (fun x => .fin (exQ x)) (fun _ => 0) (fun _ => 1) ω n = .ok (.fin (v n))) ∧
      Tendsto v atTop (𝓝 (jsDiv exP exQ))) ∧
    (∀ᵐ ω ∂(uniformStream 1), ∃ v : ℕ → ℝ,
      (∀ᶠ n in atTop, evmse (fun x => .fin (exP x)) (fun x => .fin (exQ x)) (fun _ => 0) (fun _ => 1) ω n = .fin (v n)) ∧
      Tendsto v atTop (𝓝 (∑ i, (mean exP i - mean exQ i) ^ 2))) :=
  ⟨C111_partial_same_support _ _ (fun _ => one_pos) _ _ exP_density exQ_density (ex_box.mono fun x h hx => (h hx).1)
      (Eventually.of_forall ex_support) ex_finite,
    C112_partial_same_support _ _ (fun _ => one_pos) _ _ exP_density exQ_density (ex_box.mono fun x h hx => (h hx).1)
      (Eventually.of_forall ex_support),
    C113_partial_inside _ _ (fun _ => one_pos) _ _ exP_density exQ_density (ex_box.mono fun x h hx => (h hx).1)
      (ex_box.mono fun x h hx => (h hx).2)⟩

/-- The hypotheses of the limit theorems hold when `q` has mass outside the support of `p`. -/
example : ∀ᵐ ω ∂(uniformStream 1), ∃ v : ℕ → ℝ,
      (∀ n, 0 < n → jsd (fun x => .fin (exP x)) (fun x => .fin (half exQ (unif (fun _ => 0) fun _ => 2) x)) (fun _ => 0)
        (fun _ => 1) ω n = .ok (.fin (v n))) ∧
      Tendsto v atTop (𝓝 (jsOn (region (fun _ => 0) (fun _ => 1) exP (half exQ (unif (fun _ => 0) fun _ => 2))) exP
        (half exQ (unif (fun _ => 0) fun _ => 2)))) := by
  have hd := exQ_density.half (unif_density (fun _ : Fin 1 => 0) (fun _ => 2) fun _ => two_pos)
  refine C112_partial_limit _ _ (fun _ => one_pos) _ _ exP_density.meas hd.meas exP_density.int.integrableOn
    hd.int.integrableOn fun h0 => ?_
  have : box (fun _ : Fin 1 => (0 : ℝ)) (fun _ => 1) ⊆
      region (fun _ => 0) (fun _ => 1) exP (half exQ (unif (fun _ => 0) fun _ => 2)) := by
    intro x hx
    obtain ⟨h1, -⟩ := ex_val x hx
    have hp : 0 < exP x := by rw [h1]; exact one_pos
    refine ⟨hx, hp, ?_⟩
    have hq := (ex_support x).1 hp
    have := (unif_density (fun _ : Fin 1 => 0) (fun _ => 2) fun _ => two_pos).nonneg x
    unfold half
    linarith
  have h1 := measure_mono_null this h0
  have h2 := volume_box (fun _ : Fin 1 => (0 : ℝ)) (fun _ => 1) fun _ => one_pos
  rw [measureReal_def, h1] at h2
  simp [vol] at h2

end MetricCompute
end Verif
