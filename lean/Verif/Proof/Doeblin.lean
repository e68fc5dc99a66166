import Verif.Proof.AdaptiveSLLN

/-!
# Law of large numbers for chains with a minorised kernel

A state is updated from independent random inputs. If the law of the next state dominates `ε ν` whatever the state, and `π`
is invariant, the averages of every bounded function along the run converge almost surely to its integral over `π`.
-/

set_option linter.unusedSectionVars false
set_option autoImplicit false

namespace Verif
namespace Adaptive

open MeasureTheory ProbabilityTheory Filter Topology

variable {Ξ S : Type*} [MeasurableSpace Ξ] [MeasurableSpace S] (P : Measure Ξ) [IsProbabilityMeasure P]

/-- Mean of `g` at the next state. -/
noncomputable def nextMean (step : S → Ξ → S) (g : S → ℝ) (s : S) : ℝ := ∫ ξ, g (step s ξ) ∂P

variable {step : S → Ξ → S} (hstep : Measurable (Function.uncurry step))

include hstep in
theorem step_meas (s : S) : Measurable (step s) := hstep.comp measurable_prodMk_left

include hstep in
theorem nextMean_meas {g : S → ℝ} (hg : Measurable g) : Measurable (nextMean P step g) := by
  have h : StronglyMeasurable (Function.uncurry fun s ξ => g (step s ξ)) := (hg.comp hstep).stronglyMeasurable
  exact (h.integral_prod_right (ν := P)).measurable

include hstep in
theorem next_integrable {g : S → ℝ} (hg : Measurable g) {a b : ℝ} (hab : ∀ s, a ≤ g s ∧ g s ≤ b) (s : S) :
    Integrable (fun ξ => g (step s ξ)) P :=
  Integrable.of_bound (hg.comp (step_meas hstep s)).aestronglyMeasurable (max |a| |b|)
    (Eventually.of_forall fun ξ => abs_le_max_abs_abs (hab _).1 (hab _).2)

variable {ν : Measure S} [IsProbabilityMeasure ν] {ε : ℝ}

/-- One step shrinks the range of a function. -/
theorem nextMean_range (hε : 0 ≤ ε)
    (hmin : ∀ s B, MeasurableSet B → ENNReal.ofReal ε * ν B ≤ P {ξ | step s ξ ∈ B})
    (hs : Measurable (Function.uncurry step)) {g : S → ℝ} (hg : Measurable g) {a b : ℝ} (hab : ∀ s, a ≤ g s ∧ g s ≤ b) :
    ∃ a' b', b' - a' = (1 - ε) * (b - a) ∧ a ≤ a' ∧ b' ≤ b ∧ ∀ s, a' ≤ nextMean P step g s ∧ nextMean P step g s ≤ b' := by
  have hgν : Integrable g ν := Integrable.of_bound hg.aestronglyMeasurable (max |a| |b|)
    (Eventually.of_forall fun s => abs_le_max_abs_abs (hab _).1 (hab _).2)
  have hle : ∀ s, ENNReal.ofReal ε • ν ≤ P.map (step s) := by
    intro s
    rw [Measure.le_iff]
    intro B hB
    rw [Measure.map_apply (step_meas hs s) hB]
    exact hmin s B hB
  have hbound : ∀ s, Integrable g (P.map (step s)) := fun s =>
    (integrable_map_measure hg.aestronglyMeasurable (step_meas hs s).aemeasurable).2 (next_integrable P hs hg hab s)
  have key : ∀ (h : S → ℝ) (s : S), Measurable h → (∀ s, 0 ≤ h s) → Integrable h (P.map (step s)) →
      ε * ∫ x, h x ∂ν ≤ ∫ ξ, h (step s ξ) ∂P := by
    intro h s hm h0 hi
    rw [← integral_map (step_meas hs s).aemeasurable hm.aestronglyMeasurable]
    have := integral_mono_measure (hle s) (Eventually.of_forall h0) hi
    rwa [integral_smul_measure, ENNReal.toReal_ofReal hε, smul_eq_mul] at this
  have h1 : a ≤ ∫ x, g x ∂ν := by
    have := integral_mono (integrable_const a) hgν fun s => (hab s).1
    simpa using this
  have h2 : ∫ x, g x ∂ν ≤ b := by
    have := integral_mono hgν (integrable_const b) fun s => (hab s).2
    simpa using this
  refine ⟨a + ε * (∫ x, g x ∂ν - a), b - ε * (b - ∫ x, g x ∂ν), by ring, ?_, ?_, fun s => ⟨?_, ?_⟩⟩
  · nlinarith [mul_nonneg hε (sub_nonneg.2 h1)]
  · nlinarith [mul_nonneg hε (sub_nonneg.2 h2)]
  · have := key (fun x => g x - a) s (hg.sub_const a) (fun s => sub_nonneg.2 (hab s).1) ((hbound s).sub (integrable_const a))
    rw [integral_sub hgν (integrable_const a), integral_sub (next_integrable P hs hg hab s) (integrable_const a)] at this
    simp only [integral_const, probReal_univ, one_smul, smul_eq_mul, one_mul] at this
    unfold nextMean
    linarith
  · have := key (fun x => b - g x) s (hg.const_sub b) (fun s => sub_nonneg.2 (hab s).2) ((integrable_const b).sub (hbound s))
    rw [integral_sub (integrable_const b) hgν, integral_sub (integrable_const b) (next_integrable P hs hg hab s)] at this
    simp only [integral_const, probReal_univ, one_smul, smul_eq_mul, one_mul] at this
    unfold nextMean
    linarith

/-- Mean of `g` after `n` steps. -/
noncomputable def meanAfter (step : S → Ξ → S) (g : S → ℝ) : ℕ → S → ℝ
  | 0 => g
  | n + 1 => nextMean P step (meanAfter step g n)

include hstep in
theorem meanAfter_meas {g : S → ℝ} (hg : Measurable g) : ∀ n, Measurable (meanAfter P step g n)
  | 0 => hg
  | n + 1 => nextMean_meas P hstep (meanAfter_meas hg n)

theorem meanAfter_range (hε : 0 ≤ ε) (hε1 : ε ≤ 1)
    (hmin : ∀ s B, MeasurableSet B → ENNReal.ofReal ε * ν B ≤ P {ξ | step s ξ ∈ B})
    (hs : Measurable (Function.uncurry step)) {g : S → ℝ} (hg : Measurable g) {a b : ℝ} (hab : ∀ s, a ≤ g s ∧ g s ≤ b) :
    ∀ n, ∃ a' b', b' - a' = (1 - ε) ^ n * (b - a) ∧ a ≤ a' ∧ b' ≤ b ∧
      ∀ s, a' ≤ meanAfter P step g n s ∧ meanAfter P step g n s ≤ b'
  | 0 => ⟨a, b, by simp, le_refl _, le_refl _, hab⟩
  | n + 1 => by
    obtain ⟨a', b', h1, h2, h3, h4⟩ := meanAfter_range hε hε1 hmin hs hg hab n
    obtain ⟨a'', b'', h5, h6, h7, h8⟩ := nextMean_range P hε hmin hs (meanAfter_meas P hs hg n) h4
    exact ⟨a'', b'', by rw [h5, h1, pow_succ]; ring, h2.trans h6, h7.trans h3, h8⟩

/-- `π` is invariant. -/
def Invariant (step : S → Ξ → S) (π : Measure S) : Prop :=
  ∀ B, MeasurableSet B → ∫⁻ s, P {ξ | step s ξ ∈ B} ∂π = π B

theorem nextMean_invariant (hs : Measurable (Function.uncurry step)) {π : Measure S} [IsProbabilityMeasure π]
    (hinv : Invariant P step π) {g : S → ℝ} (hg : Measurable g) {a b : ℝ} (hab : ∀ s, a ≤ g s ∧ g s ≤ b) :
    ∫ s, nextMean P step g s ∂π = ∫ s, g s ∂π := by
  have hmap : (π.prod P).map (Function.uncurry step) = π := by
    refine Measure.ext fun B hB => ?_
    rw [Measure.map_apply hs hB, Measure.prod_apply (hs hB)]
    exact hinv B hB
  have hi : Integrable (fun p : S × Ξ => g (step p.1 p.2)) (π.prod P) :=
    Integrable.of_bound (hg.comp hs).aestronglyMeasurable (max |a| |b|)
      (Eventually.of_forall fun ξ => abs_le_max_abs_abs (hab _).1 (hab _).2)
  unfold nextMean
  rw [← integral_prod (fun p : S × Ξ => g (step p.1 p.2)) hi]
  conv_rhs => rw [← hmap, integral_map hs.aemeasurable hg.aestronglyMeasurable]
  rfl

theorem meanAfter_invariant (hε : 0 ≤ ε) (hε1 : ε ≤ 1)
    (hmin : ∀ s B, MeasurableSet B → ENNReal.ofReal ε * ν B ≤ P {ξ | step s ξ ∈ B})
    (hs : Measurable (Function.uncurry step)) {π : Measure S} [IsProbabilityMeasure π]
    (hinv : Invariant P step π) {g : S → ℝ} (hg : Measurable g) {a b : ℝ} (hab : ∀ s, a ≤ g s ∧ g s ≤ b) :
    ∀ n, ∫ s, meanAfter P step g n s ∂π = ∫ s, g s ∂π
  | 0 => rfl
  | n + 1 => by
    obtain ⟨a', b', -, -, -, h4⟩ := meanAfter_range P hε hε1 hmin hs hg hab n
    rw [← meanAfter_invariant hε hε1 hmin hs hinv hg hab n]
    exact nextMean_invariant P hs hinv (meanAfter_meas P hs hg n) h4

/-- After `n` steps the mean is close to the integral over the invariant law, whatever the first state. -/
theorem meanAfter_close (hε : 0 ≤ ε) (hε1 : ε ≤ 1)
    (hmin : ∀ s B, MeasurableSet B → ENNReal.ofReal ε * ν B ≤ P {ξ | step s ξ ∈ B})
    (hs : Measurable (Function.uncurry step)) {π : Measure S} [IsProbabilityMeasure π]
    (hinv : Invariant P step π) {g : S → ℝ} (hg : Measurable g) {a b : ℝ} (hab : ∀ s, a ≤ g s ∧ g s ≤ b) (n : ℕ) (s : S) :
    |meanAfter P step g n s - ∫ s, g s ∂π| ≤ (1 - ε) ^ n * (b - a) := by
  obtain ⟨a', b', h1, -, -, h4⟩ := meanAfter_range P hε hε1 hmin hs hg hab n
  have hi : Integrable (meanAfter P step g n) π := Integrable.of_bound (meanAfter_meas P hs hg n).aestronglyMeasurable
    (max |a'| |b'|) (Eventually.of_forall fun s => abs_le_max_abs_abs (h4 _).1 (h4 _).2)
  rw [← meanAfter_invariant P hε hε1 hmin hs hinv hg hab n]
  have h5 : a' ≤ ∫ x, meanAfter P step g n x ∂π := by
    have := integral_mono (integrable_const a') hi fun s => (h4 s).1
    simpa using this
  have h6 : ∫ x, meanAfter P step g n x ∂π ≤ b' := by
    have := integral_mono hi (integrable_const b') fun s => (h4 s).2
    simpa using this
  rw [abs_le]
  constructor <;> linarith [(h4 s).1, (h4 s).2]

/-- The averages of `h (next state) - E[h (next state)]` vanish. -/
theorem martingale_slln (hs : Measurable (Function.uncurry step)) (s₀ : S) {h : S → ℝ} (hh : Measurable h) {B : ℝ}
    (hB : ∀ s, |h s| ≤ B) :
    ∀ᵐ ω ∂(Measure.infinitePi fun _ : ℕ => P), Tendsto (fun n : ℕ =>
      (∑ k ∈ Finset.range n, (h (st step s₀ ω (k + 1)) - nextMean P step h (st step s₀ ω k))) / n) atTop (𝓝 0) := by
  have hab : ∀ s, -B ≤ h s ∧ h s ≤ B := fun s => abs_le.1 (hB s)
  have hN : ∀ s, -B ≤ nextMean P step h s ∧ nextMean P step h s ≤ B := by
    intro s
    constructor
    · have := integral_mono (integrable_const (-B)) (next_integrable P hs hh hab s) fun ξ => (hab _).1
      simpa [nextMean] using this
    · have := integral_mono (next_integrable P hs hh hab s) (integrable_const B) fun ξ => (hab _).2
      simpa [nextMean] using this
  let X : S → Ξ → ℝ := fun s ξ => h (step s ξ) - nextMean P step h s + 2 * B
  have hX : Measurable (Function.uncurry X) :=
    ((hh.comp hs).sub ((nextMean_meas P hs hh).comp measurable_fst)).add_const _
  have hXr : ∀ s ξ, 0 ≤ X s ξ ∧ X s ξ ≤ 4 * B := by
    intro s ξ
    have h1 := hab (step s ξ)
    have h2 := hN s
    constructor <;> simp only [X] <;> linarith [h1.1, h1.2, h2.1, h2.2]
  have hL : ∀ s, MemLp (X s) 2 P := fun s =>
    MemLp.of_bound (hX.comp measurable_prodMk_left).aestronglyMeasurable (4 * B)
      (Eventually.of_forall fun ξ => by rw [Real.norm_of_nonneg (hXr s ξ).1]; exact (hXr s ξ).2)
  have hc : ∀ s, ∫ ξ, X s ξ ∂P = 2 * B := by
    intro s
    simp only [X]
    have hi : Integrable (fun ξ => h (step s ξ) - nextMean P step h s) P :=
      (next_integrable P hs hh hab s).sub (integrable_const _)
    rw [integral_add hi (integrable_const _), integral_sub (next_integrable P hs hh hab s) (integrable_const _)]
    simp [nextMean]
  have hM : ∀ s, ∫ ξ, X s ξ ^ 2 ∂P ≤ (4 * B) ^ 2 := by
    intro s
    have := integral_mono (hL s).integrable_sq (integrable_const ((4 * B) ^ 2))
      fun ξ => pow_le_pow_left₀ (hXr s ξ).1 (hXr s ξ).2 2
    simpa using this
  filter_upwards [slln P hs s₀ hX (fun s ξ => (hXr s ξ).1) MeasurableSet.univ (fun s _ => hL s) (fun s _ => hc s)
    (fun s _ => hM s)] with ω hω
  have h1 := (hω fun _ => Set.mem_univ _).sub_const (2 * B)
  rw [sub_self] at h1
  refine h1.congr' ?_
  filter_upwards [eventually_gt_atTop 0] with n hn
  have hn' : (n : ℝ) ≠ 0 := by positivity
  have : total step s₀ X ω n = (∑ k ∈ Finset.range n, (h (st step s₀ ω (k + 1)) - nextMean P step h (st step s₀ ω k))) +
      n * (2 * B) := by
    unfold total
    rw [show (n : ℝ) * (2 * B) = ∑ k ∈ Finset.range n, 2 * B by simp, ← Finset.sum_add_distrib]
    rfl
  rw [this, add_div, mul_div_cancel_left₀ _ hn', add_sub_cancel_right]

/-- **Law of large numbers.** Minorised kernel, invariant law `π`, bounded function: the averages over the visited states
converge almost surely to the integral. -/
theorem doeblin_slln (hε : 0 < ε) (hε1 : ε ≤ 1)
    (hmin : ∀ s B, MeasurableSet B → ENNReal.ofReal ε * ν B ≤ P {ξ | step s ξ ∈ B})
    (hs : Measurable (Function.uncurry step)) {π : Measure S} [IsProbabilityMeasure π]
    (hinv : Invariant P step π) (s₀ : S) {g : S → ℝ} (hg : Measurable g) {C : ℝ} (hC : ∀ s, |g s| ≤ C) :
    ∀ᵐ ω ∂(Measure.infinitePi fun _ : ℕ => P), Tendsto (fun n : ℕ =>
      (∑ k ∈ Finset.range n, g (st step s₀ ω (k + 1))) / n) atTop (𝓝 (∫ s, g s ∂π)) := by
  have hab : ∀ s, -C ≤ g s ∧ g s ≤ C := fun s => abs_le.1 (hC s)
  have hC0 : 0 ≤ C := (abs_nonneg _).trans (hC s₀)
  have hB : ∀ N s, |meanAfter P step g N s| ≤ C := by
    intro N s
    obtain ⟨a', b', -, h2, h3, h4⟩ := meanAfter_range P hε.le hε1 hmin hs hg hab N
    rw [abs_le]
    exact ⟨h2.trans (h4 s).1, (h4 s).2.trans h3⟩
  have hall : ∀ᵐ ω ∂(Measure.infinitePi fun _ : ℕ => P), ∀ N : ℕ, Tendsto (fun n : ℕ =>
      (∑ k ∈ Finset.range n, (meanAfter P step g N (st step s₀ ω (k + 1)) -
        meanAfter P step g (N + 1) (st step s₀ ω k))) / n) atTop (𝓝 0) :=
    ae_all_iff.2 fun N => martingale_slln P hs s₀ (meanAfter_meas P hs hg N) (hB N)
  filter_upwards [hall] with ω hω
  -- the averages of the `N`-step means all have the same limit
  have hshift : ∀ N : ℕ, Tendsto (fun n : ℕ => (∑ k ∈ Finset.range n, (meanAfter P step g N (st step s₀ ω (k + 1)) -
        meanAfter P step g (N + 1) (st step s₀ ω (k + 1)))) / n) atTop (𝓝 0) := by
    intro N
    have hz : Tendsto (fun n : ℕ => (meanAfter P step g (N + 1) (st step s₀ ω n) - meanAfter P step g (N + 1) s₀) / n)
        atTop (𝓝 0) := by
      refine squeeze_zero_norm (a := fun n : ℕ => (2 * C) / n) (fun n => ?_)
        (tendsto_const_nhds.div_atTop tendsto_natCast_atTop_atTop)
      rw [norm_div, Real.norm_natCast]
      refine div_le_div_of_nonneg_right ?_ (by positivity)
      rw [Real.norm_eq_abs]
      have h1 := abs_le.1 (hB (N + 1) (st step s₀ ω n))
      have h2 := abs_le.1 (hB (N + 1) s₀)
      rw [abs_le]
      constructor <;> linarith [h1.1, h1.2, h2.1, h2.2]
    have := (hω N).sub hz
    rw [sub_zero] at this
    refine this.congr fun n => ?_
    rw [← sub_div]
    congr 1
    have htel : ∑ k ∈ Finset.range n, (meanAfter P step g (N + 1) (st step s₀ ω (k + 1)) -
        meanAfter P step g (N + 1) (st step s₀ ω k)) =
        meanAfter P step g (N + 1) (st step s₀ ω n) - meanAfter P step g (N + 1) s₀ :=
      Finset.sum_range_sub (fun k => meanAfter P step g (N + 1) (st step s₀ ω k)) n
    rw [← htel, ← Finset.sum_sub_distrib]
    exact Finset.sum_congr rfl fun k _ => by ring
  have hN : ∀ N : ℕ, Tendsto (fun n : ℕ => (∑ k ∈ Finset.range n, (g (st step s₀ ω (k + 1)) -
        meanAfter P step g N (st step s₀ ω (k + 1)))) / n) atTop (𝓝 0) := by
    intro N
    induction N with
    | zero => simp [meanAfter]
    | succ N ih =>
      have := ih.add (hshift N)
      rw [add_zero] at this
      refine this.congr fun n => ?_
      rw [← add_div, ← Finset.sum_add_distrib]
      congr 1
      exact Finset.sum_congr rfl fun k _ => by ring
  rw [Metric.tendsto_atTop]
  intro δ hδ
  have hgeo : Tendsto (fun N : ℕ => (1 - ε) ^ N * (C - -C)) atTop (𝓝 0) := by
    have := (tendsto_pow_atTop_nhds_zero_of_lt_one (sub_nonneg.2 hε1) (by linarith : 1 - ε < 1)).mul_const (C - -C)
    rwa [zero_mul] at this
  obtain ⟨N, hNδ⟩ := ((tendsto_order.1 hgeo).2 (δ / 2) (by positivity)).exists
  obtain ⟨n₀, hn₀⟩ := Metric.tendsto_atTop.1 (hN N) (δ / 2) (by positivity)
  refine ⟨max n₀ 1, fun n hn => ?_⟩
  have h1 := hn₀ n ((le_max_left _ _).trans hn)
  have hn1 : 0 < n := lt_of_lt_of_le one_pos ((le_max_right _ _).trans hn)
  have hn' : (0 : ℝ) < n := by exact_mod_cast hn1
  rw [Real.dist_eq, sub_zero] at h1
  rw [Real.dist_eq]
  have h2 : |(∑ k ∈ Finset.range n, (meanAfter P step g N (st step s₀ ω (k + 1)) - ∫ s, g s ∂π)) / n| ≤
      (1 - ε) ^ N * (C - -C) := by
    rw [abs_div, abs_of_pos hn', div_le_iff₀ hn']
    refine (Finset.abs_sum_le_sum_abs _ _).trans ?_
    refine (Finset.sum_le_sum fun k _ => meanAfter_close P hε.le hε1 hmin hs hinv hg hab N _).trans ?_
    rw [Finset.sum_const, Finset.card_range, nsmul_eq_mul, mul_comm]
  have e : (∑ k ∈ Finset.range n, g (st step s₀ ω (k + 1))) / n - ∫ s, g s ∂π =
      (∑ k ∈ Finset.range n, (g (st step s₀ ω (k + 1)) - meanAfter P step g N (st step s₀ ω (k + 1)))) / n +
      (∑ k ∈ Finset.range n, (meanAfter P step g N (st step s₀ ω (k + 1)) - ∫ s, g s ∂π)) / n := by
    rw [← add_div, ← Finset.sum_add_distrib]
    simp only [sub_add_sub_cancel]
    rw [Finset.sum_sub_distrib, Finset.sum_const, Finset.card_range, nsmul_eq_mul, sub_div, mul_div_cancel_left₀ _ hn'.ne']
  rw [e]
  refine (abs_add_le _ _).trans_lt ?_
  linarith

/-! ### Several steps between samples -/

/-- Law of the state after one more step. -/
theorem law_succ (hs : Measurable (Function.uncurry step)) (s₀ : S) (n : ℕ) {B : Set S} (hB : MeasurableSet B) :
    (Measure.infinitePi fun _ : ℕ => P) {ω | st step s₀ ω (n + 1) ∈ B} =
      ∫⁻ ω, P {ξ | step (st step s₀ ω n) ξ ∈ B} ∂(Measure.infinitePi fun _ : ℕ => P) := by
  have hm := st_measurable hs s₀ n
  have h1 : {ω : ℕ → Ξ | st step s₀ ω (n + 1) ∈ B} =
      (fun ω => (st step s₀ ω n, ω n)) ⁻¹' (Function.uncurry step ⁻¹' B) := rfl
  rw [h1, ← Measure.map_apply (hm.prodMk (measurable_pi_apply n)) (hs hB), law_round P hs s₀ n, Measure.prod_apply (hs hB),
    lintegral_map (measurable_measure_prodMk_left (hs hB)) hm]
  rfl

/-- The kernel of `n + 1` steps is minorised too. -/
theorem steps_minor (hmin : ∀ s B, MeasurableSet B → ENNReal.ofReal ε * ν B ≤ P {ξ | step s ξ ∈ B})
    (hs : Measurable (Function.uncurry step)) (n : ℕ) (s : S) (B : Set S) (hB : MeasurableSet B) :
    ENNReal.ofReal ε * ν B ≤ (Measure.infinitePi fun _ : ℕ => P) {ω | st step s ω (n + 1) ∈ B} := by
  rw [law_succ P hs s n hB]
  calc ENNReal.ofReal ε * ν B = ∫⁻ _, ENNReal.ofReal ε * ν B ∂(Measure.infinitePi fun _ : ℕ => P) := by simp
    _ ≤ _ := lintegral_mono fun ω => hmin _ B hB

theorem st_uncurry_meas (hs : Measurable (Function.uncurry step)) :
    ∀ n, Measurable (Function.uncurry fun (s : S) (ω : ℕ → Ξ) => st step s ω n)
  | 0 => measurable_fst
  | n + 1 => hs.comp ((st_uncurry_meas hs n).prodMk ((measurable_pi_apply n).comp measurable_snd))

/-- A law that one step leaves invariant is left invariant by several. -/
theorem steps_invariant (hs : Measurable (Function.uncurry step)) {π : Measure S} [IsProbabilityMeasure π]
    (hinv : Invariant P step π) : ∀ n, Invariant (Measure.infinitePi fun _ : ℕ => P) (fun s ω => st step s ω n) π
  | 0 => by
    intro B hB
    have : ∀ s, (Measure.infinitePi fun _ : ℕ => P) {ω | st step s ω 0 ∈ B} = B.indicator 1 s := by
      intro s
      by_cases h : s ∈ B <;> simp [st, h]
    simp_rw [this]
    exact lintegral_indicator_one hB
  | n + 1 => by
    intro B hB
    have ih := steps_invariant hs hinv n
    have hmap : (π.prod (Measure.infinitePi fun _ : ℕ => P)).map (Function.uncurry fun s ω => st step s ω n) = π := by
      refine Measure.ext fun A hA => ?_
      rw [Measure.map_apply (st_uncurry_meas hs n) hA, Measure.prod_apply (st_uncurry_meas hs n hA)]
      exact ih A hA
    have hk : Measurable fun s => P {ξ | step s ξ ∈ B} := measurable_measure_prodMk_left (hs hB)
    simp_rw [law_succ P hs _ n hB]
    have := lintegral_prod (μ := π) (ν := Measure.infinitePi fun _ : ℕ => P)
      (fun p : S × (ℕ → Ξ) => P {ξ | step (st step p.1 p.2 n) ξ ∈ B}) (hk.comp (st_uncurry_meas hs n)).aemeasurable
    rw [← this, ← hinv B hB]
    conv_rhs => rw [← hmap, lintegral_map hk (st_uncurry_meas hs n)]
    rfl

end Adaptive
end Verif
