import Verif.Model.ShippedRejection
import Verif.Props.RejectionMin
import Verif.Props.Uniform
import Verif.Proof.GMMSupport

/-!
# Rejection sampling as shipped: C148
-/

set_option linter.unusedSectionVars false
set_option autoImplicit false

namespace Verif
namespace Rejection

open MeasureTheory Set

variable {d : ℕ} {t : (Fin d → ℝ) → ℝ}

/-- The box with the widths of the search space, centred at the origin. -/
def centredBox (lo hi : Fin d → ℝ) : Set (Fin d → ℝ) := {x | ∀ i, -((hi i - lo i) / 2) < x i ∧ x i ≤ (hi i - lo i) / 2}

/-- The density of the uniform distribution on that box. -/
noncomputable def centredDensity (lo hi : Fin d → ℝ) (x : Fin d → ℝ) : ℝ :=
  (centredBox lo hi).indicator (fun _ => 1 / ∏ i, (hi i - lo i)) x

theorem centredDensity_eq (lo hi : Fin d → ℝ) : centredDensity lo hi = uniformDensity (fun _ => 0) fun i => (hi i - lo i) / 2 := by
  have h1 : centredBox lo hi = univ.pi fun i => Ioc (0 - (hi i - lo i) / 2) (0 + (hi i - lo i) / 2) := by
    ext x
    simp [centredBox, mem_pi]
  have h2 : ∏ i, (hi i - lo i) = ∏ i, (2 * ((hi i - lo i) / 2)) := Finset.prod_congr rfl fun i _ => by ring
  funext x
  unfold centredDensity uniformDensity
  rw [h1, h2]

theorem centredBox_meas (lo hi : Fin d → ℝ) : MeasurableSet (centredBox lo hi) := by
  have h1 : centredBox lo hi = univ.pi fun i => Ioc (-((hi i - lo i) / 2)) ((hi i - lo i) / 2) := by
    ext x
    simp [centredBox, mem_pi]
  rw [h1]
  exact MeasurableSet.univ_pi fun _ => measurableSet_Ioc

theorem centredDensity_density {lo hi : Fin d → ℝ} (hb : ∀ i, lo i < hi i) : IsDensity (centredDensity lo hi) := by
  have hnn : ∀ x, 0 ≤ centredDensity lo hi x := fun x =>
    indicator_nonneg (fun _ _ => one_div_nonneg.2 (Finset.prod_nonneg fun i _ => by linarith [hb i])) x
  refine ⟨measurable_const.indicator (centredBox_meas lo hi), hnn, ?_⟩
  obtain ⟨-, -, -, -, hi1, hi2⟩ := C06_uniform_density (fun _ : Fin d => (0 : ℝ)) _ (fun i => (hi i - lo i) / 2)
    (Or.inr rfl) (fun i => by linarith [hb i])
  rw [← centredDensity_eq] at hi1 hi2
  rw [← ofReal_integral_eq_lintegral_ofReal hi1 (Filter.Eventually.of_forall hnn), hi2, ENNReal.ofReal_one]

/-- The shipped sampler is rejection sampling with the uniform density on the box centred at the origin and scaling 1. -/
theorem shipped_eq {lo hi : Fin d → ℝ} (hb : ∀ i, lo i < hi i) :
    shipped (fun x => .fin (t x)) lo hi = .ok (densCfg t (centredDensity lo hi) 1 100) := by
  obtain ⟨U, hU, hp, -⟩ := C06_uniform_density (fun _ : Fin d => (0 : ℝ)) _ (fun i => (hi i - lo i) / 2)
    (Or.inr rfl) (fun i => by linarith [hb i])
  unfold shipped shippedProposal
  rw [hU]
  rw [← centredDensity_eq] at hp
  show Except.ok _ = Except.ok _
  unfold densCfg
  rw [funext hp]

/-- **C148_partial** The shipped sampler on a target with a normalised density `t`, which is not zero on the whole box the
proposals come from: the samples follow the target exactly if the target is uniform on a part of the box centred at the origin
that has the widths of the search space. Missing with respect to C148: all other targets. -/
theorem C148_partial {lo hi : Fin d → ℝ} (hb : ∀ i, lo i < hi i) (ht : IsDensity t)
    (hm : volume {x | 0 < t x ∧ x ∈ centredBox lo hi} ≠ 0) :
    shipped (fun x => .fin (t x)) lo hi = .ok (densCfg t (centredDensity lo hi) 1 100) ∧
    (FollowsTarget t (centredDensity lo hi) 1 100 ↔
      ∃ c : ℝ, ∀ᵐ x, 0 < t x → t x = c ∧ x ∈ centredBox lo hi) := by
  refine ⟨shipped_eq hb, ?_⟩
  have hq := centredDensity_density hb
  have hv : (0 : ℝ) < 1 / ∏ i, (hi i - lo i) := one_div_pos.2 (Finset.prod_pos fun i _ => by linarith [hb i])
  have hin : ∀ x ∈ centredBox lo hi, centredDensity lo hi x = 1 / ∏ i, (hi i - lo i) := fun x hx => indicator_of_mem hx _
  have hout : ∀ x, centredDensity lo hi x ≠ 0 → x ∈ centredBox lo hi := fun x hx => by
    by_contra h
    exact hx (indicator_of_notMem h _)
  have hpos : ∫⁻ x, ENNReal.ofReal (min (t x) (1 * centredDensity lo hi x)) ≠ 0 := by
    intro h
    rw [lintegral_eq_zero_iff (ht.meas.min (hq.meas.const_mul 1)).ennreal_ofReal] at h
    apply hm
    refine measure_mono_null ?_ (ae_iff.1 h)
    rintro x ⟨h1, h2⟩
    simp only [mem_setOf_eq, Pi.zero_apply, ENNReal.ofReal_eq_zero, not_le, one_mul]
    exact lt_min h1 (by rw [hin x h2]; exact hv)
  rw [C125_iff one_pos (by norm_num) hq ht.meas ht.nonneg hpos (by rw [ht.total]; exact ENNReal.one_ne_top)]
  constructor
  · rintro (h | ⟨c, h⟩)
    · have heq : (fun x => ENNReal.ofReal (t x)) =ᵐ[volume] fun x => ENNReal.ofReal (centredDensity lo hi x) := by
        refine ae_eq_of_ae_le_of_lintegral_le ?_ (by rw [ht.total]; exact ENNReal.one_ne_top) hq.meas.ennreal_ofReal.aemeasurable
          (by rw [ht.total, hq.total])
        filter_upwards [h] with x hx
        exact ENNReal.ofReal_le_ofReal (by rwa [one_mul] at hx)
      refine ⟨1 / ∏ i, (hi i - lo i), ?_⟩
      filter_upwards [heq] with x hx h0
      have hx' : t x = centredDensity lo hi x := by
        have := congrArg ENNReal.toReal hx
        rwa [ENNReal.toReal_ofReal (ht.nonneg x), ENNReal.toReal_ofReal (hq.nonneg x)] at this
      have hmem := hout x (by rw [← hx']; exact h0.ne')
      exact ⟨by rw [hx', hin x hmem], hmem⟩
    · have hc : c ≠ 0 := by
        rintro rfl
        apply hm
        refine measure_mono_null ?_ (ae_iff.1 h)
        rintro x ⟨h1, h2⟩
        simp only [mem_setOf_eq, zero_mul, Classical.not_imp]
        exact ⟨h1, by rw [hin x h2]; exact hv.ne'⟩
      refine ⟨(1 / ∏ i, (hi i - lo i)) / c, ?_⟩
      filter_upwards [h] with x hx h0
      have hmem := hout x (by rw [hx h0]; exact mul_ne_zero hc h0.ne')
      refine ⟨?_, hmem⟩
      rw [← hin x hmem, hx h0]
      field_simp
  · rintro ⟨c, h⟩
    refine Or.inr ⟨(1 / ∏ i, (hi i - lo i)) / c, ?_⟩
    filter_upwards [h] with x hx h0
    obtain ⟨h1, h2⟩ := hx h0
    have hc : c ≠ 0 := by rw [← h1]; exact h0.ne'
    rw [h1, hin x h2, div_mul_cancel₀ _ hc]

theorem gaussDiag_density {m v : Fin d → ℝ} (hv : ∀ k, 0 < v k) : IsDensity (gaussDiag m v) := by
  refine ⟨?_, gaussDiag_nonneg m v, ?_⟩
  · unfold gaussDiag
    fun_prop
  · rw [← ofReal_integral_eq_lintegral_ofReal (gaussDiag_integrable m v hv) (Filter.Eventually.of_forall (gaussDiag_nonneg m v))]
    have h : ∫ x, gaussDiag m v x = 1 := by
      obtain ⟨s, hs, -, -, -, -, -, h1⟩ := C09_normal_density m (Matrix.diagonal v) (posDef_diag hv)
      rw [diag_mk hv] at hs
      have hs : diagNormal (m, v) = s := by injection hs
      subst hs
      rw [← h1]
      exact integral_congr_ae (Filter.Eventually.of_forall fun x => (diag_prob hv x).symm)
    rw [h, ENNReal.ofReal_one]

/-- **C148** (negation) The samples of the shipped sampler do not follow the target for the shipped target `normal` (mean 0,
variance 0.2, on `[-5, 5]`), nor for any other density that is greater on one open part of the box than on another where it is
positive; and for search spaces that are not centred at the origin not even for the uniform distribution on the search space. -/
theorem C148_refuted :
    (∀ {d : ℕ} (t : (Fin d → ℝ) → ℝ) (lo hi : Fin d → ℝ), (∀ i, lo i < hi i) → IsDensity t → ∀ A B : Set (Fin d → ℝ),
      IsOpen A → IsOpen B → A.Nonempty → B.Nonempty → A ⊆ centredBox lo hi →
      (∀ x ∈ A, ∀ y ∈ B, t y < t x) → (∀ y ∈ B, 0 < t y) → ¬ FollowsTarget t (centredDensity lo hi) 1 100) ∧
    ¬ FollowsTarget (gaussDiag ![0] ![1/5]) (centredDensity ![-5] ![5]) 1 100 ∧
    ∀ (lo hi : Fin 1 → ℝ), lo 0 < hi 0 → lo 0 + hi 0 ≠ 0 → lo 0 * hi 0 ≤ 0 →
      ¬ FollowsTarget (uniformDensity (fun _ => (lo 0 + hi 0) / 2) fun _ => (hi 0 - lo 0) / 2) (centredDensity lo hi) 1 100 := by
  have key : ∀ {d : ℕ} (t : (Fin d → ℝ) → ℝ) (lo hi : Fin d → ℝ), (∀ i, lo i < hi i) → IsDensity t → ∀ A B : Set (Fin d → ℝ),
      IsOpen A → IsOpen B → A.Nonempty → B.Nonempty → A ⊆ centredBox lo hi →
      (∀ x ∈ A, ∀ y ∈ B, t y < t x) → (∀ y ∈ B, 0 < t y) → ¬ FollowsTarget t (centredDensity lo hi) 1 100 := by
    intro d t lo hi hb ht A B hA hB hA0 hB0 hsub hlt hp hf
    have hpA : ∀ x ∈ A, 0 < t x := fun x hx => by
      obtain ⟨y, hy⟩ := hB0
      exact (hp y hy).trans (hlt x hx y hy)
    have hm : volume {x | 0 < t x ∧ x ∈ centredBox lo hi} ≠ 0 := fun h0 =>
      (hA.measure_pos volume hA0).ne' (measure_mono_null (show A ⊆ {x | 0 < t x ∧ x ∈ centredBox lo hi} from fun x hx => ⟨hpA x hx, hsub hx⟩) h0)
    obtain ⟨c, hc⟩ := (C148_partial hb ht hm).2.1 hf
    have hd := Measure.dense_of_ae hc
    obtain ⟨x, hx, hxc⟩ := hd.inter_open_nonempty A hA hA0
    obtain ⟨y, hy, hyc⟩ := hd.inter_open_nonempty B hB hB0
    have := hlt x hx y hy
    rw [(hxc (hpA x hx)).1, (hyc (hp y hy)).1] at this
    exact lt_irrefl _ this
  have hopen : ∀ a b : ℝ, IsOpen {x : Fin 1 → ℝ | a < x 0 ∧ x 0 < b} := fun a b =>
    (isOpen_lt continuous_const (continuous_apply 0)).inter (isOpen_lt (continuous_apply 0) continuous_const)
  have hne : ∀ a b : ℝ, a < b → {x : Fin 1 → ℝ | a < x 0 ∧ x 0 < b}.Nonempty := fun a b h =>
    ⟨fun _ => (a + b) / 2, by constructor <;> simp only <;> linarith⟩
  refine ⟨key, ?_, ?_⟩
  · refine key _ _ _ (fun i => by fin_cases i; norm_num) (gaussDiag_density fun k => by fin_cases k; norm_num)
      {x | 0 < x 0 ∧ x 0 < 1} {x | 2 < x 0 ∧ x 0 < 3} (hopen _ _) (hopen _ _) (hne _ _ one_pos) (hne _ _ (by norm_num)) ?_ ?_ ?_
    · rintro x ⟨h1, h2⟩ i
      fin_cases i
      norm_num
      constructor <;> linarith
    · rintro x ⟨h1, h2⟩ y ⟨h3, h4⟩
      unfold gaussDiag
      simp only [Fin.prod_univ_one, Matrix.cons_val_fin_one, Matrix.cons_val_zero]
      refine div_lt_div_of_pos_right (Real.exp_lt_exp.2 ?_) (by positivity)
      have hxy : (x 0 - 0) ^ 2 < (y 0 - 0) ^ 2 := by nlinarith
      have h5 : ∀ z : ℝ, -(z - 0) ^ 2 / (2 * (1 / 5)) = -(5 / 2) * (z - 0) ^ 2 := fun z => by ring
      rw [h5, h5]
      linarith
    · rintro y -
      unfold gaussDiag
      simp only [Fin.prod_univ_one, Matrix.cons_val_fin_one, Matrix.cons_val_zero]
      positivity
  · intro lo hi hb hs h0 hf
    set c := (lo 0 + hi 0) / 2 with hcd
    set r := (hi 0 - lo 0) / 2 with hrd
    have hr : 0 < r := by rw [hrd]; linarith
    have hdens : IsDensity (uniformDensity (fun _ : Fin 1 => c) fun _ => r) := by
      obtain ⟨-, -, -, -, hi1, hi2⟩ := C06_uniform_density (fun _ : Fin 1 => c) _ (fun _ => r) (Or.inr rfl) (fun _ => hr)
      have hnn : ∀ x, 0 ≤ uniformDensity (fun _ : Fin 1 => c) (fun _ => r) x := fun x =>
        indicator_nonneg (fun _ _ => one_div_nonneg.2 (Finset.prod_nonneg fun i _ => by linarith)) x
      refine ⟨measurable_const.indicator (MeasurableSet.univ_pi fun _ => measurableSet_Ioc), hnn, ?_⟩
      rw [← ofReal_integral_eq_lintegral_ofReal hi1 (Filter.Eventually.of_forall hnn), hi2, ENNReal.ofReal_one]
    have hpos : ∀ x : Fin 1 → ℝ, lo 0 < x 0 → x 0 ≤ hi 0 → 0 < uniformDensity (fun _ : Fin 1 => c) (fun _ => r) x := by
      intro x h1 h2
      unfold uniformDensity
      rw [indicator_of_mem]
      · exact one_div_pos.2 (Finset.prod_pos fun i _ => by linarith)
      · intro i _
        fin_cases i
        constructor
        · show c - r < x 0
          rw [hcd, hrd]; linarith
        · show x 0 ≤ c + r
          rw [hcd, hrd]; linarith
    have hlo : lo 0 ≤ 0 := by
      by_contra h
      push Not at h
      have : 0 < lo 0 * hi 0 := mul_pos h (h.trans hb)
      linarith
    have hhi : 0 ≤ hi 0 := by
      by_contra h
      push Not at h
      have : 0 < lo 0 * hi 0 := mul_pos_of_neg_of_neg (hb.trans h) h
      linarith
    have hb' : ∀ i, lo i < hi i := fun i => by fin_cases i; exact hb
    have hm : volume {x | 0 < uniformDensity (fun _ : Fin 1 => c) (fun _ => r) x ∧ x ∈ centredBox lo hi} ≠ 0 := by
      have hlt : max (lo 0) (-r) < min (hi 0) r := by
        rw [max_lt_iff]
        constructor <;> rw [lt_min_iff] <;> constructor <;> linarith
      intro hz
      refine ((hopen (max (lo 0) (-r)) (min (hi 0) r)).measure_pos volume (hne _ _ hlt)).ne' (measure_mono_null ?_ hz)
      rintro x ⟨h1, h2⟩
      rw [max_lt_iff] at h1
      rw [lt_min_iff] at h2
      refine ⟨hpos x h1.1 h2.1.le, fun i => ?_⟩
      fin_cases i
      exact ⟨h1.2, h2.2.le⟩
    obtain ⟨k, hk⟩ := (C148_partial hb' hdens hm).2.1 hf
    have hd := Measure.dense_of_ae hk
    rcases lt_or_gt_of_ne hs with h | h
    · obtain ⟨x, ⟨h1, h2⟩, hx⟩ := hd.inter_open_nonempty _ (hopen (lo 0) (-r)) (hne _ _ (by rw [hrd]; linarith))
      have := ((hx (hpos x h1 (by linarith))).2 0).1
      linarith
    · obtain ⟨x, ⟨h1, h2⟩, hx⟩ := hd.inter_open_nonempty _ (hopen r (hi 0)) (hne _ _ (by rw [hrd]; linarith))
      have := ((hx (hpos x (by linarith) h2.le)).2 0).2
      linarith

/-- The claim holds for the uniform distribution on a search space centred at the origin. -/
example : FollowsTarget (centredDensity (fun _ : Fin 2 => -1) fun _ => 1) (centredDensity (fun _ : Fin 2 => -1) fun _ => 1) 1 100 := by
  have hb : ∀ i : Fin 2, (fun _ : Fin 2 => (-1 : ℝ)) i < (fun _ : Fin 2 => (1 : ℝ)) i := fun _ => by norm_num
  have hmem : ∀ x, 0 < centredDensity (fun _ : Fin 2 => (-1 : ℝ)) (fun _ => 1) x → x ∈ centredBox (fun _ : Fin 2 => (-1 : ℝ)) fun _ => 1 := by
    intro x hx
    by_contra h
    exact hx.ne' (indicator_of_notMem h _)
  refine (C148_partial hb (centredDensity_density hb) ?_).2.2 ⟨1 / 4, Filter.Eventually.of_forall fun x hx => ⟨?_, hmem x hx⟩⟩
  · intro h0
    have hd := centredDensity_density hb
    have h1 := hd.total
    rw [(lintegral_eq_zero_iff hd.meas.ennreal_ofReal).2] at h1
    · exact zero_ne_one h1
    · refine ae_iff.2 (measure_mono_null ?_ h0)
      intro x hx
      simp only [mem_setOf_eq, Pi.zero_apply, ENNReal.ofReal_eq_zero, not_le] at hx
      exact ⟨hx, hmem x hx⟩
  · unfold centredDensity
    rw [indicator_of_mem (hmem x hx)]
    norm_num

end Rejection
end Verif
