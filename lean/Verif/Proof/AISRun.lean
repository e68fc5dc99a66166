import Verif.Spec.AISRun
import Verif.Props.AIS

/-!
# Runs of the population samplers and their weighted sums
-/

set_option linter.unusedSectionVars false
set_option autoImplicit false

namespace Verif

open MeasureTheory AISRound Filter Topology

variable {d N k : ℕ}

/-- What is known about a state after some rounds: `T g` is the weighted sum of `g` over the samples. -/
structure Sums (N : ℕ) (S : AIS ℝ d) (c : Fin N → Fin d → ℝ) (T : ((Fin d → ℝ) → ℝ) → ℝ) : Prop where
  centers : S.centers = List.ofFn c
  model : S.modelWeights = List.replicate N (XF.fin (1 / (N : ℝ)))
  sums : ∃ ws : List ℝ, S.weights = ws.map XF.fin ∧ ws.length = S.samples.length ∧
    ∀ g, (List.zipWith (fun x w => g x * w) S.samples ws).sum = T g

theorem zipWith_map_self {α β γ : Type*} (h : α → β → γ) (w : α → β) (l : List α) :
    List.zipWith h l (l.map w) = l.map fun x => h x (w x) := by
  induction l with
  | nil => rfl
  | cons a l ih => simp [ih]

theorem roundPts_eq (F : Family d) {S : AIS ℝ d} {c : Fin N → Fin d → ℝ} (hc : S.centers = List.ofFn c)
    (z : Fin N × Fin k → Fin d → ℝ) : roundPts F S z = famPts (points F c z) := by
  unfold roundPts points
  congr 1
  funext p
  rw [hc]
  simp

/-- A round adds its value to the sums. -/
theorem Sums.next (F : Family d) (hN : 0 < N) {t : (Fin d → ℝ) → ℝ} {S S' : AIS ℝ d} {c c' : Fin N → Fin d → ℝ}
    {T : ((Fin d → ℝ) → ℝ) → ℝ} (h : Sums N S c T) (z : Fin N × Fin k → Fin d → ℝ) (h1 : S'.centers = List.ofFn c')
    (h2 : S'.modelWeights = S.modelWeights) (h3 : S'.samples = S.samples ++ AIS.batch N k (roundPts F S z))
    (h4 : S'.weights = S.weights ++ (AIS.batch N k (roundPts F S z)).map
      (S.weigh (fun c x => .fin (F.dens c x)) fun x => .fin (t x))) :
    Sums N S' c' fun g => T g + value F t g c z := by
  obtain ⟨ws, hw, hl, hs⟩ := h.sums
  refine ⟨h1, h2.trans h.model, ws ++ (AIS.batch N k (famPts (points F c z))).map (wt F t c), ?_, ?_, ?_⟩
  · rw [h4, hw, List.map_append, List.map_map, roundPts_eq F h.centers]
    congr 1
    refine List.map_congr_left fun x _ => ?_
    unfold AIS.weigh
    rw [AIS.prob_fin F.dens S N (by rw [h.centers]; simp) h.model, h.centers]
    exact XF.fin_div_ne _ _ (mix_pos F hN c x).ne'
  · rw [h3, roundPts_eq F h.centers]
    simp [hl]
  · intro g
    rw [h3, roundPts_eq F h.centers, List.zipWith_append hl.symm, List.sum_append, hs, zipWith_map_self,
      sum_batch (points F c z) (fun x => g x * wt F t c x)]
    unfold value
    rw [Fintype.sum_prod_type]

/-- The weighted mean of the samples is the ratio of the sums. -/
theorem Sums.mean {S : AIS ℝ d} {c : Fin N → Fin d → ℝ} {T : ((Fin d → ℝ) → ℝ) → ℝ} (h : Sums N S c T)
    (hT : T (fun _ => 1) ≠ 0) (f : (Fin d → ℝ) → ℝ) : meanOver f S.returned = .fin (T f / T fun _ => 1) := by
  obtain ⟨ws, hw, hl, hs⟩ := h.sums
  have h1 : ws.sum = T fun _ => 1 := by
    rw [← hs]
    congr 1
    apply List.ext_getElem
    · simp [hl]
    · intro i hi1 hi2
      simp
  unfold meanOver AIS.returned
  simp only
  rw [hw, (norm_sum_one ws (by rw [h1]; exact hT)).1, ← hs f, ← h1]
  have : List.zipWith (fun x w => XF.fin (f x) * w) S.samples ((ws.map fun w => w / ws.sum).map XF.fin) =
      (List.zipWith (fun x w => f x * w / ws.sum) S.samples ws).map XF.fin := by
    rw [List.map_map, List.zipWith_map_right, List.map_zipWith]
    simp [mul_div_assoc]
  rw [this, XF.sum_map_fin]
  congr 1
  have : List.zipWith (fun x w => f x * w / ws.sum) S.samples ws =
      (List.zipWith (fun x w => f x * w) S.samples ws).map fun y => y / ws.sum := by
    rw [List.map_zipWith]
  rw [this, sum_map_div _ (fun y => y), List.map_id']

/-! ### Convergence from the adaptive law -/

section
variable {A : Type*} [MeasurableSpace A] (F : Family d)

theorem integrable_of_variance {t g : (Fin d → ℝ) → ℝ} (ht : Measurable t) (hg : Measurable g) (c : Fin d → ℝ)
    (h : Integrable fun x => (g x * t x) ^ 2 / F.dens c x) : Integrable fun x => g x * t x := by
  have hd : Integrable (F.dens c) := by
    obtain ⟨s, hs, -, -, -, -, h6, -⟩ := C09_normal_density c F.cov F.pos
    rw [F.built c] at hs
    cases hs
    exact h6
  refine Integrable.mono' (h.add hd) (hg.mul ht).aestronglyMeasurable (Eventually.of_forall fun x => ?_)
  have hp := F.dens_pos c x
  rw [Real.norm_eq_abs, Pi.add_apply]
  have h1 : (g x * t x) ^ 2 / F.dens c x + F.dens c x - 2 * |g x * t x| = (|g x * t x| - F.dens c x) ^ 2 / F.dens c x := by
    rw [← sq_abs (g x * t x)]
    field_simp
    ring
  have h2 : 0 ≤ (|g x * t x| - F.dens c x) ^ 2 / F.dens c x := by positivity
  have h3 : 0 ≤ |g x * t x| := abs_nonneg _
  linarith

theorem FiniteVariance.mono {R : Set (Fin d → ℝ)} {t g h : (Fin d → ℝ) → ℝ} (hv : FiniteVariance F R t g)
    (ht : Measurable t) (hh : Measurable h) (hle : ∀ x, |h x| ≤ |g x|) : FiniteVariance F R t h := by
  obtain ⟨M, hM⟩ := hv
  refine ⟨M, fun c hc => ?_⟩
  obtain ⟨h1, h2⟩ := hM c hc
  have hp : ∀ x, (h x * t x) ^ 2 / F.dens c x ≤ (g x * t x) ^ 2 / F.dens c x := by
    intro x
    refine div_le_div_of_nonneg_right ?_ (F.dens_pos c x).le
    rw [mul_pow, mul_pow]
    exact mul_le_mul_of_nonneg_right (sq_le_sq.2 (hle x)) (sq_nonneg _)
  have hi : Integrable fun x => (h x * t x) ^ 2 / F.dens c x := by
    refine Integrable.mono' h1 (((hh.mul ht).pow_const 2).div (F.dens_measurable c)).aestronglyMeasurable
      (Eventually.of_forall fun x => ?_)
    rw [Real.norm_of_nonneg (div_nonneg (sq_nonneg _) (F.dens_pos c x).le)]
    exact hp x
  exact ⟨hi, (integral_mono hi h1 hp).trans h2⟩

variable (Q : Measure A) [IsProbabilityMeasure Q]
  {step : (Fin N → Fin d → ℝ) → (Fin N × Fin k → Fin d → ℝ) × A → (Fin N → Fin d → ℝ)}
  (hstep : Measurable (Function.uncurry step)) (c₀ : Fin N → Fin d → ℝ) {R : Set (Fin d → ℝ)} (hR : MeasurableSet R)

theorem total_nonneg_tendsto (hN : 0 < N) {t g : (Fin d → ℝ) → ℝ} (hstep : Measurable (Function.uncurry step))
    (hR : MeasurableSet R) (ht : Measurable t) (hg : Measurable g)
    (ht0 : ∀ x, 0 ≤ t x) (hg0 : ∀ x, 0 ≤ g x) (hv : FiniteVariance F R t g) (c₁ : Fin d → ℝ) (hc₁ : c₁ ∈ R) :
    ∀ᵐ ω ∂(Measure.infinitePi fun _ : ℕ => (Measure.pi fun _ : Fin N × Fin k => stdNormal d).prod Q),
      (∀ n i, Adaptive.st step c₀ ω n i ∈ R) →
      Tendsto (fun n : ℕ => Adaptive.total step c₀ (fun c ξ => value F t g c ξ.1) ω n / n) atTop
        (𝓝 ((N * k : ℕ) * ∫ x, g x * t x)) := by
  obtain ⟨M, hM⟩ := hv
  have hgt : Integrable fun x => g x * t x := integrable_of_variance F ht hg c₁ (hM c₁ hc₁).1
  have hmp : MeasurePreserving (Prod.fst : (Fin N × Fin k → Fin d → ℝ) × A → _)
      ((Measure.pi fun _ : Fin N × Fin k => stdNormal d).prod Q) (Measure.pi fun _ : Fin N × Fin k => stdNormal d) :=
    measurePreserving_fst
  have hvm := value_measurable F (N := N) (k := k) ht hg
  have hvc : ∀ c, Measurable (value F (N := N) (k := k) t g c) := by
    intro c
    have h1 : Measurable fun z : Fin N × Fin k → Fin d → ℝ => (c, z) := by fun_prop
    have h2 := hvm.comp h1
    exact h2
  have hX : Measurable (Function.uncurry fun (c : Fin N → Fin d → ℝ) (ξ : (Fin N × Fin k → Fin d → ℝ) × A) =>
      value F t g c ξ.1) := by
    have h1 : Measurable fun q : (Fin N → Fin d → ℝ) × ((Fin N × Fin k → Fin d → ℝ) × A) => (q.1, q.2.1) := by fun_prop
    have h2 := hvm.comp h1
    exact h2
  have hRR : MeasurableSet {c : Fin N → Fin d → ℝ | ∀ i, c i ∈ R} := by
    have : {c : Fin N → Fin d → ℝ | ∀ i, c i ∈ R} = Set.univ.pi fun _ => R := by ext c; simp
    rw [this]
    exact MeasurableSet.univ_pi fun _ => hR
  obtain ⟨M', hM'⟩ : ∃ M' : ℝ, M' = (N * k) * ((N * k) * (N ^ 2 * M)) := ⟨_, rfl⟩
  obtain ⟨I, hI⟩ : ∃ I : ℝ, I = (N * k : ℕ) * ∫ x, g x * t x := ⟨_, rfl⟩
  rw [← hI]
  obtain ⟨V, hV⟩ : ∃ V : (Fin N → Fin d → ℝ) → (Fin N × Fin k → Fin d → ℝ) × A → ℝ, V = fun c ξ => value F t g c ξ.1 :=
    ⟨_, rfl⟩
  rw [← hV] at hX ⊢
  obtain ⟨RR, hRR'⟩ : ∃ RR : Set (Fin N → Fin d → ℝ), RR = {c | ∀ i, c i ∈ R} := ⟨_, rfl⟩
  rw [← hRR'] at hRR
  have hmem : ∀ c, c ∈ RR ↔ ∀ i, c i ∈ R := fun c => by rw [hRR']; rfl
  simp only [← hmem]
  obtain ⟨P, hP⟩ : ∃ P, P = (Measure.pi fun _ : Fin N × Fin k => stdNormal d).prod Q := ⟨_, rfl⟩
  have : IsProbabilityMeasure P := by rw [hP]; infer_instance
  rw [← hP] at hmp ⊢
  refine Adaptive.slln P hstep c₀ hX ?_ hRR (c := I) (M := M') ?_ ?_ ?_
  · intro c ξ
    rw [hV]
    simp only
    unfold value wt
    refine Finset.sum_nonneg fun p _ => ?_
    have h1 := hg0 (points F c ξ.1 p)
    have h2 := ht0 (points F c ξ.1 p)
    have h3 := (mix_pos F hN c (points F c ξ.1 p)).le
    exact mul_nonneg h1 (div_nonneg h2 h3)
  · intro c hc
    rw [hmem] at hc
    rw [hV]
    exact (value_sq F ht hg c (fun i => (hM _ (hc i)).1) (fun i => (hM _ (hc i)).2)).1.comp_measurePreserving hmp
  · intro c hc
    rw [hmem] at hc
    rw [hV]
    rw [hI, ← value_mean F ht hg c hN hgt]
    conv_rhs => rw [← hmp.map_eq]
    rw [integral_map hmp.measurable.aemeasurable (hvc c).aestronglyMeasurable]
  · intro c hc
    rw [hmem] at hc
    rw [hV]
    have := (value_sq F (k := k) ht hg c (fun i => (hM _ (hc i)).1) (fun i => (hM _ (hc i)).2)).2
    rw [← hM'] at this
    refine Eq.trans_le ?_ this
    simp only
    conv_rhs => rw [← hmp.map_eq]
    rw [integral_map hmp.measurable.aemeasurable ((hvc c).pow_const 2).aestronglyMeasurable]

/-- The ratios of the sums converge. -/
theorem ratio_tendsto (hN : 0 < N) (hk : 0 < k) {t f : (Fin d → ℝ) → ℝ} (hstep : Measurable (Function.uncurry step))
    (hR : MeasurableSet R) (ht : Measurable t) (hf : Measurable f)
    (ht0 : ∀ x, 0 ≤ t x) (hv1 : FiniteVariance F R t fun _ => 1) (hv : FiniteVariance F R t f) (hpos : 0 < ∫ x, t x)
    (hne : R.Nonempty) :
    ∀ᵐ ω ∂(Measure.infinitePi fun _ : ℕ => (Measure.pi fun _ : Fin N × Fin k => stdNormal d).prod Q),
      (∀ n i, Adaptive.st step c₀ ω n i ∈ R) →
      (∀ᶠ n in atTop, Adaptive.total step c₀ (fun c ξ => value F t (fun _ => 1) c ξ.1) ω n ≠ 0) ∧
      Tendsto (fun n : ℕ => Adaptive.total step c₀ (fun c ξ => value F t f c ξ.1) ω n /
        Adaptive.total step c₀ (fun c ξ => value F t (fun _ => 1) c ξ.1) ω n) atTop
        (𝓝 ((∫ x, f x * t x) / ∫ x, t x)) := by
  obtain ⟨c₁, hc₁⟩ := hne
  have hNk : (0 : ℝ) < (N * k : ℕ) := by exact_mod_cast Nat.mul_pos hN hk
  have hp : Measurable fun x => max (f x) 0 := hf.max measurable_const
  have hm : Measurable fun x => max (-f x) 0 := hf.neg.max measurable_const
  have hvp : FiniteVariance F R t fun x => max (f x) 0 := hv.mono F ht hp fun x => by
    rw [abs_of_nonneg (le_max_right _ _)]
    exact max_le (le_abs_self _) (abs_nonneg _)
  have hvm : FiniteVariance F R t fun x => max (-f x) 0 := hv.mono F ht hm fun x => by
    rw [abs_of_nonneg (le_max_right _ _)]
    exact max_le (neg_le_abs _) (abs_nonneg _)
  have h1 := total_nonneg_tendsto F Q c₀ hN hstep hR ht measurable_const ht0 (fun _ => zero_le_one) hv1 c₁ hc₁
  have h2 := total_nonneg_tendsto F Q c₀ hN hstep hR ht hp ht0 (fun _ => le_max_right _ _) hvp c₁ hc₁
  have h3 := total_nonneg_tendsto F Q c₀ hN hstep hR ht hm ht0 (fun _ => le_max_right _ _) hvm c₁ hc₁
  have hip := integrable_of_variance F ht hp c₁ (hvp.choose_spec c₁ hc₁).1
  have him := integrable_of_variance F ht hm c₁ (hvm.choose_spec c₁ hc₁).1
  have hfe : ∀ x, f x = max (f x) 0 - max (-f x) 0 := fun x => by
    rcases le_total (f x) 0 with h | h
    · rw [max_eq_right h, max_eq_left (by linarith)]; ring
    · rw [max_eq_left h, max_eq_right (by linarith)]; ring
  have hint : ∫ x, f x * t x = (∫ x, max (f x) 0 * t x) - ∫ x, max (-f x) 0 * t x := by
    rw [← integral_sub hip him]
    refine integral_congr_ae (Eventually.of_forall fun x => ?_)
    simp only
    rw [← sub_mul, ← hfe]
  filter_upwards [h1, h2, h3] with ω e1 e2 e3 hin
  have e1 := e1 hin
  have e23 := (e2 hin).sub (e3 hin)
  simp only [one_mul] at e1
  have hsplit : ∀ n, Adaptive.total step c₀ (fun c ξ => value F t f c ξ.1) ω n =
      Adaptive.total step c₀ (fun c ξ => value F t (fun x => max (f x) 0) c ξ.1) ω n -
      Adaptive.total step c₀ (fun c ξ => value F t (fun x => max (-f x) 0) c ξ.1) ω n := by
    intro n
    unfold Adaptive.total value
    rw [← Finset.sum_sub_distrib]
    refine Finset.sum_congr rfl fun j _ => ?_
    rw [← Finset.sum_sub_distrib]
    refine Finset.sum_congr rfl fun p _ => ?_
    rw [← sub_mul, ← hfe]
  have hlim : (0 : ℝ) < (N * k : ℕ) * ∫ x, t x := mul_pos hNk hpos
  constructor
  · filter_upwards [e1.eventually (lt_mem_nhds hlim)] with n hn h0
    rw [h0] at hn
    simp at hn
  · have h := e23.div e1 hlim.ne'
    rw [← mul_sub, ← hint, mul_div_mul_left _ _ hNk.ne'] at h
    refine Tendsto.congr' ?_ h
    filter_upwards [eventually_gt_atTop 0] with n hn
    have hn' : (n : ℝ) ≠ 0 := by positivity
    simp only [Pi.div_apply]
    rw [← sub_div, ← hsplit, div_div_div_cancel_right₀ hn']

end

end Verif
