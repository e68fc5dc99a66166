import Verif.Props.AISUnbiased
import Verif.Props.SampleLaw
import Verif.Proof.AdaptiveSLLN
import Mathlib.Algebra.Order.Chebyshev

/-!
# Mean and second moment of one round of a population sampler

The points of a round are computed from standard normal numbers as `np.random.multivariate_normal` does it.
-/

set_option linter.unusedSectionVars false
set_option autoImplicit false

namespace Verif
namespace AISRound

open MeasureTheory Matrix

variable {d N k : ℕ}

/-- A family of normal proposals with a common covariance, and the decomposition of it used by the generator. -/
structure Family (d : ℕ) where
  cov : Matrix (Fin d) (Fin d) ℝ
  prop : (Fin d → ℝ) → Normal d
  u : Matrix (Fin d) (Fin d) ℝ
  s : Fin d → ℝ
  v : Matrix (Fin d) (Fin d) ℝ
  pos : cov.PosDef
  built : ∀ m, Normal.mk' m cov = .ok (prop m)
  svd : IsSVD cov u s v

namespace Family

variable (F : Family d)

/-- Density of the proposal centred at `m`. -/
noncomputable def dens (m x : Fin d → ℝ) : ℝ := (F.prop m).prob1 x

theorem dens_eq (m x : Fin d → ℝ) : F.dens m x =
    Real.exp (-(1/2) * ((x - m) ⬝ᵥ (F.cov⁻¹ *ᵥ (x - m)))) / Real.sqrt ((2 * Real.pi) ^ d * F.cov.det) := by
  obtain ⟨N, hN, h, -⟩ := C09_normal_density m F.cov F.pos
  rw [F.built m] at hN
  cases hN
  exact h x

theorem loc_eq (m : Fin d → ℝ) : (F.prop m).loc = m := by
  have h := F.built m
  rw [Normal.mk'_eq F.pos.det_pos] at h
  cases h' : F.prop m
  rw [h'] at h
  cases h
  rfl

theorem dens_pos (m x : Fin d → ℝ) : 0 < F.dens m x := Real.exp_pos _

theorem dens_continuous : Continuous fun p : (Fin d → ℝ) × (Fin d → ℝ) => F.dens p.1 p.2 := by
  simp_rw [dens_eq]
  fun_prop

theorem dens_measurable (m : Fin d → ℝ) : Measurable (F.dens m) :=
  (F.dens_continuous.comp (Continuous.prodMk_right m)).measurable

/-- One point drawn from the proposal centred at `m`. -/
noncomputable def draw (m z : Fin d → ℝ) : Fin d → ℝ := (F.prop m).sample1 F.s F.v z

theorem draw_eq (m z : Fin d → ℝ) : F.draw m z = z ᵥ* (diagonal (fun i => Real.sqrt (F.s i)) * F.v) + m := by
  unfold draw Normal.sample1
  rw [F.loc_eq]

theorem draw_continuous : Continuous fun p : (Fin d → ℝ) × (Fin d → ℝ) => F.draw p.1 p.2 := by
  simp_rw [draw_eq]
  fun_prop

theorem draw_law (m : Fin d → ℝ) : (stdNormal d).map (F.draw m) = law volume (F.dens m) :=
  normal_law m F.cov F.pos (F.prop m) (F.built m) F.u F.v F.s F.svd.left F.svd.right F.svd.nonneg F.svd.eq

end Family

variable (F : Family d)

instance : IsProbabilityMeasure (stdNormal d) := by unfold stdNormal; infer_instance

/-- The weight of a point. -/
noncomputable def wt (t : (Fin d → ℝ) → ℝ) (c : Fin N → Fin d → ℝ) (x : Fin d → ℝ) : ℝ :=
  t x / mixVal F.dens (List.ofFn c) N x

/-- The points of a round. -/
noncomputable def points (c : Fin N → Fin d → ℝ) (z : Fin N × Fin k → Fin d → ℝ) : Fin N × Fin k → Fin d → ℝ :=
  fun p => F.draw (c p.1) (z p)

/-- What a round adds to the weighted sum of a test function. -/
noncomputable def value (t g : (Fin d → ℝ) → ℝ) (c : Fin N → Fin d → ℝ) (z : Fin N × Fin k → Fin d → ℝ) : ℝ :=
  ∑ p, g (points F c z p) * wt F t c (points F c z p)

theorem mix_continuous : Continuous fun p : (Fin N → Fin d → ℝ) × (Fin d → ℝ) => mixVal F.dens (List.ofFn p.1) N p.2 := by
  simp_rw [mixVal_ofFn]
  refine Continuous.div_const (continuous_finset_sum _ fun i _ => ?_) _
  have h : Continuous fun p : (Fin N → Fin d → ℝ) × (Fin d → ℝ) => (p.1 i, p.2) := by fun_prop
  exact F.dens_continuous.comp h

theorem wt_measurable {t : (Fin d → ℝ) → ℝ} (ht : Measurable t) :
    Measurable fun p : (Fin N → Fin d → ℝ) × (Fin d → ℝ) => wt F t p.1 p.2 :=
  (ht.comp measurable_snd).div (mix_continuous F).measurable

theorem value_measurable {t g : (Fin d → ℝ) → ℝ} (ht : Measurable t) (hg : Measurable g) :
    Measurable (Function.uncurry (value F (N := N) (k := k) t g)) := by
  unfold Function.uncurry value
  refine Finset.measurable_sum _ fun p _ => ?_
  have h : Measurable fun q : (Fin N → Fin d → ℝ) × (Fin N × Fin k → Fin d → ℝ) => points F q.1 q.2 p := by
    unfold points
    have h' : Continuous fun q : (Fin N → Fin d → ℝ) × (Fin N × Fin k → Fin d → ℝ) => (q.1 p.1, q.2 p) := by fun_prop
    exact (F.draw_continuous.comp h').measurable
  exact (hg.comp h).mul ((wt_measurable F ht).comp (measurable_fst.prodMk h))

/-- Law of one point of a round. -/
theorem point_law (c : Fin N → Fin d → ℝ) (p : Fin N × Fin k) :
    (Measure.pi fun _ : Fin N × Fin k => stdNormal d).map (fun z => points F c z p) = law volume (F.dens (c p.1)) := by
  have h1 : Measurable (F.draw (c p.1)) := (F.draw_continuous.comp (Continuous.prodMk_right _)).measurable
  have mp := measurePreserving_eval (fun _ : Fin N × Fin k => stdNormal d) p
  have e := Measure.map_map (μ := Measure.pi fun _ : Fin N × Fin k => stdNormal d) h1 mp.measurable
  rw [mp.map_eq, F.draw_law] at e
  exact e.symm

theorem mix_pos (hN : 0 < N) (c : Fin N → Fin d → ℝ) (x : Fin d → ℝ) : 0 < mixVal F.dens (List.ofFn c) N x :=
  mixVal_pos F.dens F.dens_pos _ N hN (by simp) x

theorem dens_le_mix (c : Fin N → Fin d → ℝ) (i : Fin N) (x : Fin d → ℝ) :
    F.dens (c i) x ≤ N * mixVal F.dens (List.ofFn c) N x := by
  have hN : (0 : ℝ) < N := by exact_mod_cast (Fin.pos i)
  rw [mixVal_ofFn, mul_div_cancel₀ _ hN.ne']
  exact Finset.single_le_sum (f := fun i => F.dens (c i) x) (fun i _ => (F.dens_pos _ x).le) (Finset.mem_univ i)

section
variable {t g : (Fin d → ℝ) → ℝ} (ht : Measurable t) (hg : Measurable g) (c : Fin N → Fin d → ℝ)

include ht hg

theorem term_measurable (c : Fin N → Fin d → ℝ) : Measurable fun x => g x * wt F t c x :=
  hg.mul ((wt_measurable F ht).comp (measurable_const.prodMk measurable_id))

/-- Second moment of one term. -/
theorem term_sq (p : Fin N × Fin k) {M : ℝ} (hi : Integrable fun x => (g x * t x) ^ 2 / F.dens (c p.1) x)
    (hM : ∫ x, (g x * t x) ^ 2 / F.dens (c p.1) x ≤ M) :
    MemLp (fun z => g (points F c z p) * wt F t c (points F c z p)) 2 (Measure.pi fun _ : Fin N × Fin k => stdNormal d) ∧
      ∫ z, (g (points F c z p) * wt F t c (points F c z p)) ^ 2 ∂(Measure.pi fun _ : Fin N × Fin k => stdNormal d) ≤
        N ^ 2 * M := by
  have hN : 0 < N := Fin.pos p.1
  have hn : (0 : ℝ) < N := by exact_mod_cast hN
  have hm := term_measurable F ht hg c
  have hmp : MeasurePreserving (fun z => points F c z p) (Measure.pi fun _ : Fin N × Fin k => stdNormal d)
      (law volume (F.dens (c p.1))) := by
    refine ⟨?_, point_law F c p⟩
    exact (F.draw_continuous.comp (Continuous.prodMk_right _)).measurable.comp (measurable_pi_apply p)
  have hmeas : Measurable fun x => ENNReal.ofReal (F.dens (c p.1) x) := (F.dens_measurable _).ennreal_ofReal
  have hlt : ∀ᵐ x, ENNReal.ofReal (F.dens (c p.1) x) < ⊤ := Filter.Eventually.of_forall fun x => ENNReal.ofReal_lt_top
  have hle : ∀ x, F.dens (c p.1) x * (g x * wt F t c x) ^ 2 ≤ N ^ 2 * ((g x * t x) ^ 2 / F.dens (c p.1) x) := by
    intro x
    have h1 := F.dens_pos (c p.1) x
    have h2 := mix_pos F hN c x
    have h3 := dens_le_mix F c p.1 x
    unfold wt
    rw [← mul_div_assoc, div_pow, ← mul_div_assoc, ← mul_div_assoc, div_le_div_iff₀ (by positivity) h1]
    have h4 : F.dens (c p.1) x ^ 2 ≤ (N * mixVal F.dens (List.ofFn c) N x) ^ 2 := pow_le_pow_left₀ h1.le h3 2
    nlinarith [mul_le_mul_of_nonneg_left h4 (sq_nonneg (g x * t x))]
  have hint : Integrable fun x => F.dens (c p.1) x * (g x * wt F t c x) ^ 2 := by
    refine Integrable.mono' (hi.const_mul ((N : ℝ) ^ 2)) ((F.dens_measurable _).mul (hm.pow_const 2)).aestronglyMeasurable
      (Filter.Eventually.of_forall fun x => ?_)
    rw [Real.norm_of_nonneg (mul_nonneg (F.dens_pos _ x).le (sq_nonneg _))]
    exact hle x
  have hcongr : (fun x => (ENNReal.ofReal (F.dens (c p.1) x)).toReal • (g x * wt F t c x) ^ 2) =
      fun x => F.dens (c p.1) x * (g x * wt F t c x) ^ 2 := by
    funext x
    rw [ENNReal.toReal_ofReal (F.dens_pos _ x).le, smul_eq_mul]
  have hsq : Integrable (fun x => (g x * wt F t c x) ^ 2) (law volume (F.dens (c p.1))) := by
    unfold law
    rw [integrable_withDensity_iff_integrable_smul' hmeas hlt, hcongr]
    exact hint
  constructor
  · have h2 : MemLp (fun x => g x * wt F t c x) 2 (law volume (F.dens (c p.1))) :=
      (memLp_two_iff_integrable_sq hm.aestronglyMeasurable).2 hsq
    exact h2.comp_measurePreserving hmp
  · have e : ∫ z, (g (points F c z p) * wt F t c (points F c z p)) ^ 2 ∂(Measure.pi fun _ : Fin N × Fin k => stdNormal d) =
        ∫ x, (g x * wt F t c x) ^ 2 ∂(law volume (F.dens (c p.1))) := by
      rw [← hmp.map_eq, integral_map hmp.measurable.aemeasurable (hm.pow_const 2).aestronglyMeasurable]
    rw [e]
    unfold law
    rw [integral_withDensity_eq_integral_toReal_smul hmeas hlt, hcongr]
    calc ∫ x, F.dens (c p.1) x * (g x * wt F t c x) ^ 2 ≤ ∫ x, N ^ 2 * ((g x * t x) ^ 2 / F.dens (c p.1) x) :=
          integral_mono hint (hi.const_mul _) hle
      _ = N ^ 2 * ∫ x, (g x * t x) ^ 2 / F.dens (c p.1) x := integral_const_mul _ _
      _ ≤ N ^ 2 * M := mul_le_mul_of_nonneg_left hM (by positivity)

/-- Mean of a round. -/
theorem value_mean (hN : 0 < N) (hgt : Integrable fun x => g x * t x) :
    ∫ z, value F (k := k) t g c z ∂(Measure.pi fun _ : Fin N × Fin k => stdNormal d) =
      (N * k : ℕ) * ∫ x, g x * t x := by
  have hn : (0 : ℝ) < N := by exact_mod_cast hN
  have hone := one_proposal volume c F.dens t g hN (fun i x => (F.dens_pos _ x).le) (fun i => F.dens_measurable _) ht hg hgt
    (fun x _ => ⟨⟨0, hN⟩, F.dens_pos _ x⟩)
  have hmp : ∀ p : Fin N × Fin k, MeasurePreserving (fun z => points F c z p)
      (Measure.pi fun _ : Fin N × Fin k => stdNormal d) (law volume (F.dens (c p.1))) := by
    intro p
    refine ⟨?_, point_law F c p⟩
    exact (F.draw_continuous.comp (Continuous.prodMk_right _)).measurable.comp (measurable_pi_apply p)
  unfold value
  have hip : ∀ p : Fin N × Fin k, Integrable (fun z => g (points F c z p) * wt F t c (points F c z p))
      (Measure.pi fun _ : Fin N × Fin k => stdNormal d) := fun p => (hmp p).integrable_comp_of_integrable (hone p.1).1
  rw [integral_finset_sum _ fun p _ => hip p]
  have e : ∀ p : Fin N × Fin k, ∫ z, g (points F c z p) * wt F t c (points F c z p)
      ∂(Measure.pi fun _ : Fin N × Fin k => stdNormal d) =
      ∫ x, F.dens (c p.1) x * (g x * (t x / mixVal F.dens (List.ofFn c) N x)) := by
    intro p
    rw [← (hone p.1).2.1, ← (hmp p).map_eq]
    exact (integral_map (hmp p).measurable.aemeasurable (term_measurable F ht hg c).aestronglyMeasurable).symm
  rw [Finset.sum_congr rfl fun p _ => e p, Fintype.sum_prod_type]
  simp only [Finset.sum_const, Finset.card_univ, Fintype.card_fin, nsmul_eq_mul]
  rw [← Finset.mul_sum, ← integral_finset_sum _ fun i _ => (hone i).2.2]
  have e2 : ∫ x, ∑ i, F.dens (c i) x * (g x * (t x / mixVal F.dens (List.ofFn c) N x)) = N * ∫ x, g x * t x := by
    rw [← integral_const_mul]
    refine integral_congr_ae (Filter.Eventually.of_forall fun x => ?_)
    simp only
    rw [← Finset.sum_mul, mixVal_ofFn]
    have hpos : 0 < ∑ i, F.dens (c i) x :=
      Finset.sum_pos (fun i _ => F.dens_pos _ x) ⟨⟨0, hN⟩, Finset.mem_univ _⟩
    field_simp
  rw [e2]
  push_cast
  ring

/-- Second moment of a round. -/
theorem value_sq {M : ℝ} (hi : ∀ i, Integrable fun x => (g x * t x) ^ 2 / F.dens (c i) x)
    (hM : ∀ i, ∫ x, (g x * t x) ^ 2 / F.dens (c i) x ≤ M) :
    MemLp (value F (k := k) t g c) 2 (Measure.pi fun _ : Fin N × Fin k => stdNormal d) ∧
      ∫ z, value F (k := k) t g c z ^ 2 ∂(Measure.pi fun _ : Fin N × Fin k => stdNormal d) ≤
        (N * k) * ((N * k) * (N ^ 2 * M)) := by
  have ht' := fun p : Fin N × Fin k => term_sq F ht hg c p (hi p.1) (hM p.1)
  have hL : MemLp (value F (k := k) t g c) 2 (Measure.pi fun _ : Fin N × Fin k => stdNormal d) := by
    unfold value
    exact memLp_finset_sum _ fun p _ => (ht' p).1
  refine ⟨hL, ?_⟩
  have hcard : ((Finset.univ : Finset (Fin N × Fin k)).card : ℝ) = N * k := by simp
  calc ∫ z, value F (k := k) t g c z ^ 2 ∂(Measure.pi fun _ : Fin N × Fin k => stdNormal d)
      ≤ ∫ z, (N * k) * ∑ p, (g (points F c z p) * wt F t c (points F c z p)) ^ 2
          ∂(Measure.pi fun _ : Fin N × Fin k => stdNormal d) := by
        refine integral_mono hL.integrable_sq
          ((integrable_finset_sum _ fun p _ => (ht' p).1.integrable_sq).const_mul _) fun z => ?_
        have := sq_sum_le_card_mul_sum_sq (s := (Finset.univ : Finset (Fin N × Fin k)))
          (f := fun p => g (points F c z p) * wt F t c (points F c z p))
        rw [hcard] at this
        exact this
    _ = (N * k) * ∑ p : Fin N × Fin k, ∫ z, (g (points F c z p) * wt F t c (points F c z p)) ^ 2
          ∂(Measure.pi fun _ : Fin N × Fin k => stdNormal d) := by
        rw [integral_const_mul, integral_finset_sum _ fun p _ => (ht' p).1.integrable_sq]
    _ ≤ (N * k) * ((N * k) * (N ^ 2 * M)) := by
        refine mul_le_mul_of_nonneg_left ?_ (by positivity)
        refine (Finset.sum_le_sum fun p _ => (ht' p).2).trans (le_of_eq ?_)
        rw [Finset.sum_const, nsmul_eq_mul, hcard]

end

end AISRound
end Verif
