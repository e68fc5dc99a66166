import Verif.Props.RejectionLaw
import Mathlib.MeasureTheory.Function.AEEqOfLIntegral

/-!
# Rejection sampling: C125, the law of the samples without an envelope
-/

set_option linter.unusedSectionVars false
set_option autoImplicit false

namespace Verif
namespace Rejection

open MeasureTheory Set

variable {d : ℕ} {t q : (Fin d → ℝ) → ℝ} {s : ℝ} {k : ℕ}

theorem accepts_iff_lt (hs : 0 < s) (hq : ∀ x, 0 ≤ q x) (ht : ∀ x, 0 ≤ t x) (x : Fin d → ℝ) (u : ℝ) :
    accepts (densCfg t q s k) x u = true ↔ u * (q x * s) < t x := by
  simp only [accepts, ratio, densCfg, XF.fin_mul]
  rcases (hq x).eq_or_lt with h0 | h0
  · rw [← h0, zero_mul, mul_zero]
    rcases (ht x).eq_or_lt with h1 | h1
    · rw [← h1]
      have : (XF.fin 0 / XF.fin 0 : XF ℝ) = .nan := by simp [XF.fin_div, XF.infMul]
      rw [this]
      simp [XF.ltb]
    · have : (XF.fin (t x) / XF.fin 0 : XF ℝ) = .pinf := by simp [XF.fin_div, XF.infMul, h1, h1.ne']
      rw [this]
      simp [XF.ltb, h1]
  · rw [XF.fin_div_ne _ _ (by positivity)]
    simp only [XF.ltb, decide_eq_true_eq]
    rw [lt_div_iff₀ (by positivity)]

theorem accept_meas_min (hs : 0 < s) (hqm : Measurable q) (htm : Measurable t) (hq : ∀ x, 0 ≤ q x) (ht : ∀ x, 0 ≤ t x) :
    MeasurableSet {p : (Fin d → ℝ) × ℝ | accepts (densCfg t q s k) p.1 p.2 = true} := by
  simp only [accepts_iff_lt hs hq ht]
  exact measurableSet_lt (measurable_snd.mul ((hqm.comp measurable_fst).mul_const s)) (htm.comp measurable_fst)

theorem uniform_volume_min {A C : ℝ} (hA : 0 < A) (hC : 0 ≤ C) :
    (volume.restrict (Ico (0 : ℝ) 1)) {u | u * A < C} = ENNReal.ofReal (min C A / A) := by
  rcases le_total C A with h | h
  · rw [min_eq_left h, uniform_volume hA hC h]
  · rw [min_eq_right h, ← uniform_volume hA hA.le le_rfl]
    refine measure_congr ?_
    rw [Filter.eventuallyEq_set]
    refine (ae_restrict_iff' measurableSet_Ico).2 (Filter.Eventually.of_forall fun u hu => ?_)
    have : u * A < A := by nlinarith [hu.2]
    simp only [mem_setOf_eq, this, iff_true]
    exact this.trans_le h

/-- **C125**, one proposed point: it is accepted and falls into `B` with probability
`∫_B min(target, scaling * proposal) / scaling`. -/
theorem C125_accept (hs : 0 < s) (hqm : Measurable q) (htm : Measurable t) (hq : ∀ x, 0 ≤ q x) (ht : ∀ x, 0 ≤ t x)
    {B : Set (Fin d → ℝ)} (hB : MeasurableSet B) :
    pairLaw q {p | accepts (densCfg t q s k) p.1 p.2 = true ∧ p.1 ∈ B} = ∫⁻ x in B, ENNReal.ofReal (min (t x) (s * q x) / s) := by
  have hm : MeasurableSet {p : (Fin d → ℝ) × ℝ | accepts (densCfg t q s k) p.1 p.2 = true ∧ p.1 ∈ B} :=
    (accept_meas_min hs hqm htm hq ht).inter (measurable_fst hB)
  unfold pairLaw
  rw [Measure.prod_apply hm, lintegral_withDensity_eq_lintegral_mul _ hqm.ennreal_ofReal
    (measurable_measure_prodMk_left hm), ← lintegral_indicator hB]
  refine lintegral_congr fun x => ?_
  simp only [Pi.mul_apply, preimage_setOf_eq, accepts_iff_lt hs hq ht]
  by_cases hx : x ∈ B
  · rw [indicator_of_mem hx]
    simp only [hx, and_true]
    rcases (hq x).eq_or_lt with h0 | h0
    · rw [← h0]
      simp [ht x]
    · rw [uniform_volume_min (by positivity) (ht x), ← ENNReal.ofReal_mul h0.le, mul_comm (q x) s]
      congr 1
      field_simp
  · rw [indicator_of_notMem hx]
    simp [hx]

/-- **C125**, whole calls: whatever the scaling constant is, the new samples returned by `importance_sample(n)` are
independent and all have the density `min(target, scaling * proposal)`, normalised. -/
theorem C125_samples (hs : 0 < s) (hk : 0 < k) (hq : IsDensity q) (htm : Measurable t) (ht : ∀ x, 0 ≤ t x)
    (hpos : ∫⁻ x, ENNReal.ofReal (min (t x) (s * q x)) ≠ 0) (n : ℕ) (hn : 0 < n) (idx : ℕ → ℕ) (S : Rej d)
    (Bs : List (Set (Fin d → ℝ))) (hBs : ∀ B ∈ Bs, MeasurableSet B) (hl : Bs.length + S.samples.length = n) :
    returnProb (densCfg t q s k) q n idx S Bs =
      (Bs.map fun B => (∫⁻ x in B, ENNReal.ofReal (min (t x) (s * q x))) /
        ∫⁻ x, ENNReal.ofReal (min (t x) (s * q x))).prod := by
  haveI := pairLaw_prob hq
  set m : (Fin d → ℝ) → ℝ := fun x => min (t x) (s * q x) with hm
  have hα : ∀ B : Set (Fin d → ℝ), MeasurableSet B → Accept.α (pairLaw q)
      (fun p : (Fin d → ℝ) × ℝ => accepts (densCfg t q s k) p.1 p.2) Prod.fst B =
      (∫⁻ x in B, ENNReal.ofReal (m x)) / ENNReal.ofReal s := by
    intro B hB
    unfold Accept.α
    rw [C125_accept hs hq.meas htm hq.nonneg ht hB, div_eq_mul_inv, ← lintegral_mul_const' _ _ (by simp [hs])]
    refine lintegral_congr fun x => ?_
    rw [ENNReal.ofReal_div_of_pos hs, div_eq_mul_inv]
  have hs0 : ENNReal.ofReal s ≠ 0 := by simp [hs]
  have hu := hα univ MeasurableSet.univ
  rw [Measure.restrict_univ] at hu
  have hfin : ∫⁻ x, ENNReal.ofReal (m x) ≠ ⊤ := by
    refine ne_top_of_le_ne_top (b := ENNReal.ofReal s) ENNReal.ofReal_ne_top ?_
    calc ∫⁻ x, ENNReal.ofReal (m x) ≤ ∫⁻ x, ENNReal.ofReal s * ENNReal.ofReal (q x) := by
          refine lintegral_mono fun x => ?_
          rw [← ENNReal.ofReal_mul hs.le]
          exact ENNReal.ofReal_le_ofReal (min_le_right _ _)
      _ = ENNReal.ofReal s := by rw [lintegral_const_mul' _ _ ENNReal.ofReal_ne_top, hq.total, mul_one]
  unfold returnProb
  simp only [importance_fills (densCfg t q s k) hk n _ hn _ idx S Bs hl]
  refine Accept.P_eq (pairLaw q) (accept_meas_min hs hq.meas htm hq.nonneg ht) measurable_fst _ ?_ ?_ n Bs (by omega) hBs
  · intro B hB
    rw [hα B hB, hu, div_eq_mul_inv, div_eq_mul_inv, div_eq_mul_inv]
    calc (∫⁻ x in B, ENNReal.ofReal (m x)) * (ENNReal.ofReal s)⁻¹
        = (∫⁻ x in B, ENNReal.ofReal (m x)) * (ENNReal.ofReal s)⁻¹ *
            ((∫⁻ x, ENNReal.ofReal (m x)) * (∫⁻ x, ENNReal.ofReal (m x))⁻¹) := by
          rw [ENNReal.mul_inv_cancel hpos hfin, mul_one]
      _ = _ := by ring
  · rw [hu]
    exact ENNReal.div_ne_zero.2 ⟨hpos, ENNReal.ofReal_ne_top⟩

/-- **C125**, when the samples follow the target: exactly if `scaling * proposal` dominates the target (up to a null set), or
if the proposal is proportional to the target where the target is positive. -/
theorem C125_iff (hs : 0 < s) (hk : 0 < k) (hq : IsDensity q) (htm : Measurable t) (ht : ∀ x, 0 ≤ t x)
    (hpos : ∫⁻ x, ENNReal.ofReal (min (t x) (s * q x)) ≠ 0) (htfin : ∫⁻ x, ENNReal.ofReal (t x) ≠ ⊤) :
    FollowsTarget t q s k ↔
      (∀ᵐ x, t x ≤ s * q x) ∨ ∃ c : ℝ, ∀ᵐ x, 0 < t x → q x = c * t x := by
  set m : (Fin d → ℝ) → ℝ := fun x => min (t x) (s * q x) with hm
  have hmm : Measurable m := htm.min (hq.meas.const_mul s)
  have hm0 : ∀ x, 0 ≤ m x := fun x => le_min (ht x) (mul_nonneg hs.le (hq.nonneg x))
  have hmt : ∀ x, m x ≤ t x := fun x => min_le_left _ _
  have hle : ∫⁻ x, ENNReal.ofReal (m x) ≤ ∫⁻ x, ENNReal.ofReal (t x) :=
    lintegral_mono fun x => ENNReal.ofReal_le_ofReal (hmt x)
  have hmfin : ∫⁻ x, ENNReal.ofReal (m x) ≠ ⊤ := ne_top_of_le_ne_top htfin hle
  have htpos : ∫⁻ x, ENNReal.ofReal (t x) ≠ 0 := fun h => hpos (le_antisymm (hle.trans h.le) bot_le)
  set M := ∫⁻ x, ENNReal.ofReal (m x) with hM
  set T := ∫⁻ x, ENNReal.ofReal (t x) with hT
  constructor
  · intro h
    have hB : ∀ B : Set (Fin d → ℝ), MeasurableSet B →
        (∫⁻ x in B, ENNReal.ofReal (m x)) / M = (∫⁻ x in B, ENNReal.ofReal (t x)) / T := by
      intro B hB
      have h1 := h 1 id init [B] one_pos (by simpa using hB) (by simp [init])
      rw [C125_samples hs hk hq htm ht hpos 1 one_pos id init [B] (by simpa using hB) (by simp [init])] at h1
      simp only [List.map_cons, List.map_nil, List.prod_cons, List.prod_nil, mul_one] at h1
      exact h1
    have hae : (fun x => ENNReal.ofReal (m x) / M) =ᵐ[volume] fun x => ENNReal.ofReal (t x) / T := by
      refine ae_eq_of_forall_setLIntegral_eq_of_sigmaFinite (hmm.ennreal_ofReal.div_const _) (htm.ennreal_ofReal.div_const _) ?_
      intro B hBm _
      have := hB B hBm
      simp only [div_eq_mul_inv] at this ⊢
      rwa [lintegral_mul_const' _ _ (ENNReal.inv_ne_top.2 hpos), lintegral_mul_const' _ _ (ENNReal.inv_ne_top.2 htpos)]
    have hreal : ∀ᵐ x, m x = M.toReal / T.toReal * t x := by
      filter_upwards [hae] with x hx
      have := congrArg ENNReal.toReal hx
      rw [ENNReal.toReal_div, ENNReal.toReal_div, ENNReal.toReal_ofReal (hm0 x), ENNReal.toReal_ofReal (ht x)] at this
      have h1 : M.toReal ≠ 0 := ENNReal.toReal_ne_zero.2 ⟨hpos, hmfin⟩
      field_simp at this ⊢
      linarith
    by_cases hc : M.toReal / T.toReal = 1
    · left
      filter_upwards [hreal] with x hx
      rw [hc, one_mul] at hx
      rw [← hx]
      exact min_le_right _ _
    · right
      refine ⟨M.toReal / T.toReal / s, ?_⟩
      filter_upwards [hreal] with x hx hpx
      have : m x = s * q x := by
        rcases min_choice (t x) (s * q x) with h1 | h1
        · exfalso
          have h2 : m x = t x := h1
          rw [h2] at hx
          apply hc
          have : (M.toReal / T.toReal - 1) * t x = 0 := by linarith
          rcases mul_eq_zero.1 this with h3 | h3
          · linarith
          · exact absurd h3 hpx.ne'
        · exact h1
      rw [this] at hx
      field_simp
      field_simp at hx
      linarith
  · intro h
    have hkey : ∃ c : ℝ, 0 < c ∧ ∀ᵐ x, m x = c * t x := by
      rcases h with h | ⟨c, h⟩
      · refine ⟨1, one_pos, ?_⟩
        filter_upwards [h] with x hx
        rw [one_mul]
        exact min_eq_left hx
      · have hmc : ∀ᵐ x, m x = min 1 (s * c) * t x := by
          filter_upwards [h] with x hx
          rcases (ht x).eq_or_lt with h0 | h0
          · have : m x = 0 := le_antisymm ((hmt x).trans h0.ge) (hm0 x)
            rw [this, ← h0, mul_zero]
          · rw [min_mul_of_nonneg _ _ h0.le, one_mul, mul_assoc, ← hx h0]
        refine ⟨min 1 (s * c), ?_, hmc⟩
        by_contra hcn
        push Not at hcn
        apply hpos
        rw [hM]
        rw [lintegral_eq_zero_iff hmm.ennreal_ofReal]
        filter_upwards [hmc] with x hx
        have : m x ≤ 0 := by rw [hx]; exact mul_nonpos_of_nonpos_of_nonneg hcn (ht x)
        simp [this]
    obtain ⟨c, hc, hmc⟩ := hkey
    intro n idx S Bs hn hBs hl
    rw [C125_samples hs hk hq htm ht hpos n hn idx S Bs hBs hl]
    congr 1
    apply List.map_congr_left
    intro B _
    have hint : ∀ B : Set (Fin d → ℝ), ∫⁻ x in B, ENNReal.ofReal (m x) = ENNReal.ofReal c * ∫⁻ x in B, ENNReal.ofReal (t x) := by
      intro B
      rw [← lintegral_const_mul' _ _ ENNReal.ofReal_ne_top]
      refine lintegral_congr_ae (ae_restrict_of_ae ?_)
      filter_upwards [hmc] with x hx
      rw [hx, ENNReal.ofReal_mul hc.le]
    have hu := hint univ
    rw [Measure.restrict_univ] at hu
    show (∫⁻ x in B, ENNReal.ofReal (m x)) / M = _
    rw [hint B, hM, hu]
    exact ENNReal.mul_div_mul_left _ _ (by simp [hc]) ENNReal.ofReal_ne_top

/-- The hypotheses without an envelope: uniform proposal on `[0,1)`, target `2x` there, scaling 1. The target exceeds the
proposal on `(1/2, 1)`. -/
example : (∀ x : Fin 1 → ℝ, 0 ≤ (if 0 ≤ x 0 ∧ x 0 < 1 then 2 * x 0 else 0)) ∧
    ∫⁻ x : Fin 1 → ℝ, ENNReal.ofReal (min (if 0 ≤ x 0 ∧ x 0 < 1 then 2 * x 0 else 0) (1 * if 0 ≤ x 0 ∧ x 0 < 1 then 1 else 0)) ≠ 0 ∧
    ¬ ∀ᵐ x : Fin 1 → ℝ, (if 0 ≤ x 0 ∧ x 0 < 1 then 2 * x 0 else 0) ≤ 1 * (if 0 ≤ x 0 ∧ x 0 < 1 then (1 : ℝ) else 0) := by
  have hvol : (volume : Measure (Fin 1 → ℝ)) (Set.pi univ fun _ => Ioo (1/2) 1) ≠ 0 := by
    rw [volume_pi_pi]
    simp
    norm_num
  refine ⟨fun x => ?_, ?_, ?_⟩
  · split
    · rename_i h; linarith [h.1]
    · exact le_rfl
  · intro h
    apply hvol
    have h1 := setLIntegral_mono' (μ := (volume : Measure (Fin 1 → ℝ))) (s := Set.pi univ fun _ => Ioo (1/2) 1)
      (MeasurableSet.univ_pi fun _ => measurableSet_Ioo) (f := fun _ => 1)
      (g := fun x => ENNReal.ofReal (min (if 0 ≤ x 0 ∧ x 0 < 1 then 2 * x 0 else 0) (1 * if 0 ≤ x 0 ∧ x 0 < 1 then 1 else 0))) (by
        intro x hx
        have hx := hx 0 (mem_univ 0)
        have h0 : 0 ≤ x 0 ∧ x 0 < 1 := ⟨by linarith [hx.1], hx.2⟩
        simp only [h0, and_self, if_true, mul_one]
        rw [min_eq_right (by linarith [hx.1]), ENNReal.ofReal_one])
    rw [setLIntegral_one] at h1
    exact le_antisymm (h1.trans ((setLIntegral_le_lintegral _ _).trans h.le)) bot_le
  · intro h
    apply hvol
    rw [ae_iff] at h
    refine measure_mono_null ?_ h
    intro x hx
    have hx := hx 0 (mem_univ 0)
    have h0 : 0 ≤ x 0 ∧ x 0 < 1 := ⟨by linarith [hx.1], hx.2⟩
    simp only [mem_setOf_eq, h0, and_self, if_true, not_le]
    linarith [hx.1]

end Rejection
end Verif
