import Verif.Props.GMM
import Verif.Props.Support

/-!
Mass of boxes under mixtures of normal densities with diagonal covariances.
-/

set_option linter.unusedSectionVars false
set_option autoImplicit false

namespace Verif

open MeasureTheory ProbabilityTheory

variable {d : ℕ}

theorem gaussDiag_eq_prod (m : Fin d → ℝ) (v : Fin d → ℝ) (hv : ∀ k, 0 < v k) (x : Fin d → ℝ) :
    gaussDiag m v x = ∏ k, gaussianPDFReal (m k) (NNReal.mk (v k) (hv k).le) (x k) := by
  unfold gaussDiag gaussianPDFReal
  refine Finset.prod_congr rfl fun k _ => ?_
  rw [div_eq_inv_mul]
  rfl

/-- The mass of a box under independent normal coordinates is the product of the masses of its sides. -/
theorem gaussDiag_boxMass (m v : Fin d → ℝ) (hv : ∀ k, 0 < v k) (lo hi : Fin d → ℝ) :
    boxMass (gaussDiag m v) lo hi =
      ∏ k, (gaussianReal (m k) (NNReal.mk (v k) (hv k).le)).real (Set.Icc (lo k) (hi k)) := by
  have e : ∀ x : Fin d → ℝ, (Set.Icc lo hi).indicator (gaussDiag m v) x =
      ∏ k, (Set.Icc (lo k) (hi k)).indicator (gaussianPDFReal (m k) (NNReal.mk (v k) (hv k).le)) (x k) := by
    intro x
    by_cases hx : x ∈ Set.Icc lo hi
    · rw [Set.indicator_of_mem hx, gaussDiag_eq_prod m v hv]
      refine Finset.prod_congr rfl fun k _ => ?_
      rw [Set.indicator_of_mem (show x k ∈ Set.Icc (lo k) (hi k) from ⟨hx.1 k, hx.2 k⟩)]
    · rw [Set.indicator_of_notMem hx]
      have : ∃ k, x k ∉ Set.Icc (lo k) (hi k) := by
        by_contra hc
        push Not at hc
        exact hx ⟨fun k => (hc k).1, fun k => (hc k).2⟩
      obtain ⟨k, hk⟩ := this
      rw [Finset.prod_eq_zero (Finset.mem_univ k) (Set.indicator_of_notMem hk _)]
  rw [boxMass, ← integral_indicator measurableSet_Icc]
  simp_rw [e]
  rw [integral_fintype_prod_volume_eq_prod (fun (k : Fin d) => (Set.Icc (lo k) (hi k)).indicator
    (gaussianPDFReal (m k) (NNReal.mk (v k) (hv k).le)))]
  refine Finset.prod_congr rfl fun k _ => ?_
  have hne : NNReal.mk (v k) (hv k).le ≠ 0 := by
    intro h
    exact (hv k).ne' (congrArg NNReal.toReal h)
  rw [integral_indicator measurableSet_Icc, Measure.real, gaussianReal_apply_eq_integral _ hne, ENNReal.toReal_ofReal]
  exact integral_nonneg fun x => gaussianPDFReal_nonneg _ _ _

theorem gaussianReal_upper (m : ℝ) (v : NNReal) (hv : v ≠ 0) :
    (gaussianReal m v).real {x | m + 5 * v ≤ x} ≤ Real.exp (-(25 * v / 2)) := by
  have h : HasSubgaussianMGF (fun t : ℝ => t) v (gaussianReal 0 v) := by
    refine ⟨fun t => integrable_exp_mul_gaussianReal t, fun t => ?_⟩
    rw [mgf_fun_id_gaussianReal]
    simp
  have e : (gaussianReal m v).map (· - m) = gaussianReal 0 v := by rw [gaussianReal_map_sub_const, sub_self]
  rw [← e] at h
  have h2 := (HasSubgaussianMGF.of_map (by fun_prop) h).measure_ge_le (ε := 5 * v) (by positivity)
  have hv' : (v : ℝ) ≠ 0 := by exact_mod_cast hv
  have e2 : -(5 * (v : ℝ)) ^ 2 / (2 * v) = -(25 * v / 2) := by
    field_simp
    ring
  rw [e2] at h2
  refine le_trans (le_of_eq ?_) h2
  congr 1
  ext x
  simp only [Set.mem_setOf_eq, Function.comp]
  constructor <;> intro h <;> linarith

theorem gaussianReal_lower (m : ℝ) (v : NNReal) (hv : v ≠ 0) :
    (gaussianReal m v).real {x | x ≤ m - 5 * v} ≤ Real.exp (-(25 * v / 2)) := by
  have h := gaussianReal_upper (-m) v hv
  rw [← gaussianReal_map_neg, map_measureReal_apply (f := fun x : ℝ => -x) (by fun_prop)
    (show MeasurableSet {x : ℝ | -m + 5 * (v : ℝ) ≤ x} from measurableSet_Ici)] at h
  refine le_trans (le_of_eq ?_) h
  congr 1
  ext x
  simp only [Set.mem_setOf_eq, Set.mem_preimage]
  constructor <;> intro h <;> linarith

/-- Five variances on both sides of the mean hold all but `2 exp (-25 v / 2)` of the mass of a normal number. -/
theorem gaussianReal_interval_ge (m : ℝ) (v : NNReal) (hv : v ≠ 0) {a b : ℝ} (ha : a ≤ m - 5 * v) (hb : m + 5 * v ≤ b) :
    1 - 2 * Real.exp (-(25 * v / 2)) ≤ (gaussianReal m v).real (Set.Icc a b) := by
  have h1 := gaussianReal_upper m v hv
  have h2 := gaussianReal_lower m v hv
  have h3 : (gaussianReal m v).real (Set.Icc a b)ᶜ ≤
      (gaussianReal m v).real ({x | m + 5 * v ≤ x} ∪ {x | x ≤ m - 5 * v}) := by
    refine measureReal_mono ?_ (measure_ne_top _ _)
    intro x hx
    simp only [Set.mem_compl_iff, Set.mem_Icc, not_and_or, not_le] at hx
    rcases hx with h | h
    · exact Or.inr (h.le.trans ha)
    · exact Or.inl (hb.trans h.le)
  have h4 := measureReal_union_le (μ := gaussianReal m v) {x | m + 5 * v ≤ x} {x | x ≤ m - 5 * v}
  rw [probReal_compl_eq_one_sub measurableSet_Icc] at h3
  linarith

theorem one_sub_sum_le_prod {ι : Type*} (s : Finset ι) (p e : ι → ℝ) (h0 : ∀ i ∈ s, 0 ≤ p i) (h1 : ∀ i ∈ s, p i ≤ 1)
    (h : ∀ i ∈ s, 1 - e i ≤ p i) : 1 - ∑ i ∈ s, e i ≤ ∏ i ∈ s, p i := by
  classical
  induction s using Finset.induction_on with
  | empty => simp
  | insert a s ha ih =>
    rw [Finset.sum_insert ha, Finset.prod_insert ha]
    have ih' := ih (fun i hi => h0 i (Finset.mem_insert_of_mem hi)) (fun i hi => h1 i (Finset.mem_insert_of_mem hi))
      (fun i hi => h i (Finset.mem_insert_of_mem hi))
    have hp0 := h0 a (Finset.mem_insert_self a s)
    have hp1 := h1 a (Finset.mem_insert_self a s)
    have hp := h a (Finset.mem_insert_self a s)
    have hP1 : ∏ i ∈ s, p i ≤ 1 := Finset.prod_le_one (fun i hi => h0 i (Finset.mem_insert_of_mem hi))
      (fun i hi => h1 i (Finset.mem_insert_of_mem hi))
    nlinarith [mul_nonneg (sub_nonneg.2 hp1) (sub_nonneg.2 hP1)]

/-- A box reaching five variances to both sides of the mean holds all but `2 Σ exp (-25 v k / 2)` of the mass. -/
theorem gaussDiag_boxMass_ge (m v : Fin d → ℝ) (hv : ∀ k, 0 < v k) (lo hi : Fin d → ℝ)
    (hlo : ∀ k, lo k ≤ m k - 5 * v k) (hhi : ∀ k, m k + 5 * v k ≤ hi k) :
    1 - ∑ k, 2 * Real.exp (-(25 * v k / 2)) ≤ boxMass (gaussDiag m v) lo hi := by
  rw [gaussDiag_boxMass m v hv]
  refine one_sub_sum_le_prod _ _ _ (fun k _ => measureReal_nonneg) (fun k _ => measureReal_le_one) fun k _ => ?_
  have hne : NNReal.mk (v k) (hv k).le ≠ 0 := by
    intro h
    exact (hv k).ne' (congrArg NNReal.toReal h)
  exact gaussianReal_interval_ge (m k) (NNReal.mk (v k) (hv k).le) hne (hlo k) (hhi k)

theorem gaussianPDFReal_le (m : ℝ) (v : NNReal) (x : ℝ) : gaussianPDFReal m v x ≤ (Real.sqrt (2 * Real.pi * v))⁻¹ := by
  unfold gaussianPDFReal
  have : Real.exp (-(x - m) ^ 2 / (2 * v)) ≤ 1 := by
    rw [Real.exp_le_one_iff]
    apply div_nonpos_of_nonpos_of_nonneg
    · linarith [sq_nonneg (x - m)]
    · positivity
  have h2 : 0 ≤ (Real.sqrt (2 * Real.pi * v))⁻¹ := by positivity
  nlinarith

/-- An interval holds at most its length times the peak of the density. -/
theorem gaussianReal_interval_le (m : ℝ) (v : NNReal) (hv : v ≠ 0) {a b : ℝ} (hab : a ≤ b) :
    (gaussianReal m v).real (Set.Icc a b) ≤ (b - a) / Real.sqrt (2 * Real.pi * v) := by
  rw [Measure.real, gaussianReal_apply_eq_integral _ hv, ENNReal.toReal_ofReal
    (integral_nonneg fun x => gaussianPDFReal_nonneg _ _ _)]
  calc ∫ x in Set.Icc a b, gaussianPDFReal m v x ≤ ∫ _ in Set.Icc a b, (Real.sqrt (2 * Real.pi * v))⁻¹ :=
        setIntegral_mono_on (integrable_gaussianPDFReal _ _).integrableOn
          (continuous_const.integrableOn_Icc) measurableSet_Icc
          fun x _ => gaussianPDFReal_le m v x
    _ = (b - a) / Real.sqrt (2 * Real.pi * v) := by
        rw [setIntegral_const, Measure.real, Real.volume_Icc, ENNReal.toReal_ofReal (by linarith), smul_eq_mul, div_eq_mul_inv]

theorem gaussDiag_boxMass_le (m v : Fin d → ℝ) (hv : ∀ k, 0 < v k) (lo hi : Fin d → ℝ) (hb : ∀ k, lo k ≤ hi k) :
    boxMass (gaussDiag m v) lo hi ≤ ∏ k, (hi k - lo k) / Real.sqrt (2 * Real.pi * v k) := by
  rw [gaussDiag_boxMass m v hv]
  refine Finset.prod_le_prod (fun k _ => measureReal_nonneg) fun k _ => ?_
  have hne : NNReal.mk (v k) (hv k).le ≠ 0 := by
    intro h
    exact (hv k).ne' (congrArg NNReal.toReal h)
  exact gaussianReal_interval_le (m k) (NNReal.mk (v k) (hv k).le) hne (hb k)

/-- Five variances on both sides of the mean hold less than 0.78 of the mass when the variance is at most 0.05. -/
theorem gaussianReal_default (m : ℝ) (v : NNReal) (hv : v ≠ 0) (hs : (v : ℝ) ≤ 1/20) :
    (gaussianReal m v).real (Set.Icc (m - 5 * v) (m + 5 * v)) ≤ 78/100 := by
  have hv0 : 0 < (v : ℝ) := by
    have : 0 < v := pos_iff_ne_zero.2 hv
    exact_mod_cast this
  have hab : m - 5 * (v:ℝ) ≤ m + 5 * v := by linarith
  set c := (Real.sqrt (2 * Real.pi * v))⁻¹ with hc
  have hc0 : 0 ≤ c := by positivity
  rw [Measure.real, gaussianReal_apply_eq_integral _ hv, ENNReal.toReal_ofReal
    (integral_nonneg fun x => gaussianPDFReal_nonneg _ _ _)]
  have hle : ∀ x ∈ Set.Icc (m - 5 * (v:ℝ)) (m + 5 * v), gaussianPDFReal m v x ≤ c * (1 - 8/13 * ((x - m) ^ 2 / (2 * v))) := by
    intro x hx
    unfold gaussianPDFReal
    refine mul_le_mul_of_nonneg_left ?_ hc0
    set y := (x - m) ^ 2 / (2 * (v:ℝ)) with hy
    have hy0 : 0 ≤ y := by positivity
    have hy1 : y ≤ 5/8 := by
      rw [hy, div_le_iff₀ (by positivity)]
      have h1 := hx.1
      have h2 := hx.2
      have : (x - m) ^ 2 ≤ (5 * v) ^ 2 := sq_le_sq' (by linarith) (by linarith)
      nlinarith
    rw [neg_div, ← hy, Real.exp_neg]
    have h3 := Real.add_one_le_exp y
    rw [inv_le_comm₀ (Real.exp_pos _) (by linarith)]
    refine le_trans ?_ h3
    rw [inv_le_comm₀ (by linarith) (by linarith), inv_eq_one_div, div_le_iff₀ (by linarith)]
    nlinarith
  have hint : ∫ x in (m - 5 * (v:ℝ))..(m + 5 * v), c * (1 - 8/13 * ((x - m) ^ 2 / (2 * v))) =
      c * (10 * v - 1000/39 * v ^ 2) := by
    rw [intervalIntegral.integral_eq_sub_of_hasDerivAt (f := fun x => c * (x - 8/13 * ((x - m) ^ 3 / (6 * v))))]
    · field_simp
      ring
    · intro x _
      have h1 := ((((hasDerivAt_id x).sub_const m).pow 3).div_const (6 * (v:ℝ))).const_mul (8/13)
      have h2 := ((hasDerivAt_id x).sub h1).const_mul c
      refine h2.congr_deriv ?_
      simp only [id]
      field_simp
      ring
    · exact Continuous.intervalIntegrable (by fun_prop) _ _
  have hcont : Continuous fun x : ℝ => c * (1 - 8/13 * ((x - m) ^ 2 / (2 * (v:ℝ)))) := by fun_prop
  have hstep : ∫ x in Set.Icc (m - 5 * (v:ℝ)) (m + 5 * v), gaussianPDFReal m v x ≤ c * (10 * v - 1000/39 * v ^ 2) := by
    rw [← hint, intervalIntegral.integral_of_le hab, ← integral_Icc_eq_integral_Ioc]
    exact setIntegral_mono_on (integrable_gaussianPDFReal _ _).integrableOn hcont.integrableOn_Icc measurableSet_Icc hle
  refine hstep.trans ?_
  rw [hc, inv_mul_le_iff₀ (by positivity), Real.sqrt_mul (by positivity)]
  set s := Real.sqrt (v:ℝ) with hsd
  have hs0 : 0 ≤ s := Real.sqrt_nonneg _
  have hss : s ^ 2 = v := Real.sq_sqrt hv0.le
  have hpi : 2506/1000 ≤ Real.sqrt (2 * Real.pi) := by
    apply Real.le_sqrt_of_sq_le
    have := Real.pi_gt_d4
    norm_num at this ⊢
    linarith
  have hs1 : s ≤ 22361/100000 := by
    refine Real.sqrt_le_iff.2 ⟨by norm_num, ?_⟩
    norm_num at hs ⊢
    linarith
  have hkey : 10 * s - 1000/39 * s ^ 3 ≤ 78/100 * (2506/1000) := by
    nlinarith [mul_nonneg hs0 hs0, mul_nonneg hs0 (sub_nonneg.2 hs1), mul_nonneg (sub_nonneg.2 hs1) (sub_nonneg.2 hs1),
      mul_nonneg hs0 (mul_nonneg (sub_nonneg.2 hs1) (sub_nonneg.2 hs1))]
  rw [← hss]
  nlinarith [mul_le_mul_of_nonneg_left hkey hs0, mul_le_mul_of_nonneg_right hpi hs0]

/-! ### Mixtures -/

theorem gaussDiag_nonneg (m v x : Fin d → ℝ) : 0 ≤ gaussDiag m v x :=
  Finset.prod_nonneg fun k _ => by positivity

theorem gaussDiag_integrable (m v : Fin d → ℝ) (hv : ∀ k, 0 < v k) : Integrable (gaussDiag m v) := by
  obtain ⟨s, hs, -, -, -, -, h1, -⟩ := C09_normal_density m (Matrix.diagonal v) (posDef_diag hv)
  rw [diag_mk hv] at hs
  have hs : diagNormal (m, v) = s := by injection hs
  subst hs
  refine h1.congr (Filter.Eventually.of_forall fun x => ?_)
  exact diag_prob hv x

/-- The mass of a box under a mixture is the weighted sum of its masses under the components. -/
theorem gaussMix_boxMass (ps : List ((Fin d → ℝ) × (Fin d → ℝ))) (hv : ∀ p ∈ ps, ∀ k, 0 < p.2 k) (w : List ℝ)
    (lo hi : Fin d → ℝ) :
    Integrable (fun x => (List.zipWith (fun p wi => wi * gaussDiag p.1 p.2 x) ps w).sum) ∧
    boxMass (fun x => (List.zipWith (fun p wi => wi * gaussDiag p.1 p.2 x) ps w).sum) lo hi =
      (List.zipWith (fun p wi => wi * boxMass (gaussDiag p.1 p.2) lo hi) ps w).sum := by
  induction ps generalizing w with
  | nil => simp [boxMass]
  | cons p ps ih =>
    cases w with
    | nil => simp [boxMass]
    | cons a w =>
      obtain ⟨h1, h2⟩ := ih (fun q hq => hv q (List.mem_cons_of_mem _ hq)) w
      have h3 := (gaussDiag_integrable p.1 p.2 (hv p (by simp))).const_mul a
      simp only [List.zipWith_cons_cons, List.sum_cons]
      refine ⟨h3.add h1, ?_⟩
      rw [← h2]
      unfold boxMass
      rw [integral_add h3.restrict h1.restrict, integral_const_mul]

theorem weighted_ge {α : Type*} (ps : List α) (f : α → ℝ) (w : List ℝ) (hl : ps.length = w.length) (hw : ∀ x ∈ w, 0 ≤ x) (c : ℝ)
    (h : ∀ p ∈ ps, c ≤ f p) : c * w.sum ≤ (List.zipWith (fun p wi => wi * f p) ps w).sum := by
  induction ps generalizing w with
  | nil =>
    cases w with
    | nil => simp
    | cons a w => simp at hl
  | cons p ps ih =>
    cases w with
    | nil => simp at hl
    | cons a w =>
      simp only [List.zipWith_cons_cons, List.sum_cons]
      have := ih w (by simpa using hl) (fun x hx => hw x (List.mem_cons_of_mem _ hx)) fun q hq => h q (List.mem_cons_of_mem _ hq)
      have h1 := h p (by simp)
      have h2 := hw a (by simp)
      nlinarith

theorem weighted_le {α : Type*} (ps : List α) (f : α → ℝ) (w : List ℝ) (hl : ps.length = w.length) (hw : ∀ x ∈ w, 0 ≤ x) (c : ℝ)
    (h : ∀ p ∈ ps, f p ≤ c) : (List.zipWith (fun p wi => wi * f p) ps w).sum ≤ c * w.sum := by
  have := weighted_ge ps (fun p => -f p) w hl hw (-c) fun p hp => neg_le_neg (h p hp)
  have e : (List.zipWith (fun p wi => wi * -f p) ps w).sum = -(List.zipWith (fun p wi => wi * f p) ps w).sum := by
    clear * -
    induction ps generalizing w with
    | nil => simp
    | cons p ps ih =>
      cases w with
      | nil => simp
      | cons a w => simp only [List.zipWith_cons_cons, List.sum_cons, ih]; ring
  rw [e] at this
  linarith

end Verif
