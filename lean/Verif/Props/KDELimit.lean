import Verif.Proof.KDELimit
import Verif.Props.RejectionRun
import Verif.Spec.MHConsistent

/-!
# Property C137: does the density a sampler reports approach the target?
-/

set_option linter.unusedSectionVars false
set_option autoImplicit false

namespace Verif
namespace KDE

open MeasureTheory ProbabilityTheory Filter Topology

variable {d : ℕ}

/-- The density of the uniform distribution on `[0, L]^d`. -/
noncomputable def cube (d : ℕ) (L : ℝ) : (Fin d → ℝ) → ℝ :=
  (Set.Icc (fun _ => 0) (fun _ => L)).indicator fun _ => 1 / L ^ d

theorem cube_density {L : ℝ} (hL : 0 < L) : Density (cube d L) := by
  have hv : volume (Set.Icc (fun _ : Fin d => (0 : ℝ)) (fun _ => L)) = ENNReal.ofReal (L ^ d) := by
    rw [Real.volume_Icc_pi, Finset.prod_const, Finset.card_univ, Fintype.card_fin, sub_zero, ENNReal.ofReal_pow hL.le]
  refine ⟨fun x => Set.indicator_nonneg (fun _ _ => by positivity) x, ?_, ?_⟩
  · refine (integrable_indicator_iff measurableSet_Icc).2 (integrableOn_const ?_)
    rw [hv]
    exact ENNReal.ofReal_ne_top
  · unfold cube
    rw [integral_indicator measurableSet_Icc, setIntegral_const, Measure.real, hv, ENNReal.toReal_ofReal (by positivity),
      smul_eq_mul, mul_one_div_cancel (by positivity)]

theorem cube_flat {bw : ℝ} (hb : 0 < bw) (hd : 0 < d) {k : ℕ} (hk : 0 < k) (x : Fin d → ℝ) :
    cube d (16 * k * Real.sqrt (d * bw)) x * (4 * k * (4 * Real.sqrt (d * bw)) ^ d) ≤ 1 := by
  have hd' : (0 : ℝ) < d := by exact_mod_cast hd
  have hk' : (1 : ℝ) ≤ k := by exact_mod_cast hk
  have hs : 0 < Real.sqrt (d * bw) := Real.sqrt_pos.2 (by positivity)
  have h4 : (4 * k : ℝ) ≤ (4 * k) ^ d := le_self_pow₀ (by linarith) hd.ne'
  have e : (16 * k * Real.sqrt (d * bw)) ^ d = (4 * k : ℝ) ^ d * (4 * Real.sqrt (d * bw)) ^ d := by
    rw [← mul_pow]
    ring
  unfold cube
  by_cases hx : x ∈ Set.Icc (fun _ : Fin d => (0 : ℝ)) (fun _ => 16 * k * Real.sqrt (d * bw))
  · rw [Set.indicator_of_mem hx, e, one_div, inv_mul_le_iff₀ (by positivity), mul_one]
    exact mul_le_mul_of_nonneg_right h4 (by positivity)
  · rw [Set.indicator_of_notMem hx, zero_mul]
    exact zero_le_one

/-- What is reported at single points determines the function. -/
theorem reports_unique {pr lp : List (Fin d → ℝ) → Except PyErr (List (XF ℝ))} {e g : (Fin d → ℝ) → ℝ} (h : Reports pr lp e)
    (hg : ∀ x, pr [x] = .ok [.fin (g x)]) : g = e := by
  funext x
  have := hg x
  rw [h.prob] at this
  simp only [List.map_cons, List.map_nil] at this
  injection this with this
  simp at this
  exact this.symm

/-- **C137 refuted** For every dimension, bandwidth and number of kernels there is a target, the uniform density on a large
enough cube, from which the reported density stays at distance 1 (half of the largest possible distance) after every call that
returns, whatever the number of samples requested, for each of the four samplers that report a kernel density estimate: the
number of kernels does not grow with the number of samples and their width does not shrink. -/
theorem C137_refuted (hd : 0 < d) {bw : ℝ} (hb : 0 < bw) {k : ℕ} (hk : 0 < k) : ∃ (lo hi : Fin d → ℝ) (t : (Fin d → ℝ) → ℝ),
    Density t ∧ (∀ x, x ∉ Set.Icc lo hi → t x = 0) ∧
    (∀ q m b n expired script idx idx' S S' (g : (Fin d → ℝ) → ℝ),
      MHast.importanceSample (MHast.runCfg lo hi t q m b k) n expired script idx S = .done S' →
      (∀ x, prob bw k idx' S'.samples S'.kde [x] = .ok [.fin (g x)]) → 1 ≤ distance g t) ∧
    (∀ q s n expired script idx idx' S S' (l : (Fin d → ℝ) → ℝ),
      Rejection.importanceSample (Rejection.densCfg t q s k) n expired script idx S = .done S' →
      (∀ x, logProb bw k idx' S'.samples S'.kde [x] = .ok [.fin (l x)]) → 1 ≤ distance (fun x => Real.exp (l x)) t) ∧
    (∀ N n env idx idx' S S' (g : (Fin d → ℝ) → ℝ),
      Nested.importanceSample ⟨lo, hi, t, N, k⟩ n env idx S = .done S' →
      (∀ x, prob bw k idx' S'.samples S'.kde [x] = .ok [.fin (g x)]) → 1 ≤ distance g t) ∧
    (∀ N radius inflate n km fuel env idx idx' S S' (g : (Fin d → ℝ) → ℝ),
      MultiNested.importanceSample ⟨lo, hi, t, N, k, radius, inflate⟩ n km fuel env idx S = .done S' →
      (∀ x, prob bw k idx' S'.samples S'.kde [x] = .ok [.fin (g x)]) → 1 ≤ distance g t) := by
  have hs : 0 < Real.sqrt (d * bw) := Real.sqrt_pos.2 (by have : (0 : ℝ) < d := by exact_mod_cast hd
                                                          positivity)
  have hL : 0 < 16 * (k : ℝ) * Real.sqrt (d * bw) := by
    have : (0 : ℝ) < k := by exact_mod_cast hk
    positivity
  have ht := cube_density (d := d) hL
  have far : ∀ nodes : List (Fin d → ℝ), nodes.length = k → (∫ x, estimate bw nodes x = 1) →
      1 ≤ distance (estimate bw nodes) (cube d (16 * k * Real.sqrt (d * bw))) := by
    intro nodes hl h1
    refine estimate_far hb ?_ h1 ht fun x => ?_
    · rintro rfl
      simp at hl
      omega
    · rw [hl]
      exact cube_flat hb hd hk x
  refine ⟨fun _ => 0, fun _ => 16 * k * Real.sqrt (d * bw), cube d (16 * k * Real.sqrt (d * bw)), ht,
    fun x hx => Set.indicator_of_notMem hx _, ?_, ?_, ?_, ?_⟩
  · intro q m b n expired script idx idx' S S' g h hg
    obtain ⟨nodes, hl, -, -, r⟩ := C85_mh hb _ n expired script idx idx' S S' h
    rw [reports_unique r hg]
    exact far nodes hl r.one
  · intro q s n expired script idx idx' S S' l h hg
    obtain ⟨nodes, hl, -, -, r, hpos, h1⟩ := C85_rejection_partial hb _ n expired script idx idx' S S' h
    have e : (fun x => Real.exp (l x)) = estimate bw nodes := by
      funext x
      have h2 := hg x
      rw [show k = (Rejection.densCfg (cube d (16 * k * Real.sqrt (d * bw))) q s k).nKde from rfl, r] at h2
      simp only [List.map_cons, List.map_nil] at h2
      injection h2 with h2
      simp at h2
      rw [← h2, Real.exp_log (hpos x)]
    rw [e]
    exact far nodes hl h1
  · intro N n env idx idx' S S' g h hg
    obtain ⟨nodes, hl, -, -, r⟩ := C85_nested hb _ n env idx idx' S S' h
    rw [reports_unique r hg]
    exact far nodes hl r.one
  · intro N radius inflate n km fuel env idx idx' S S' g h hg
    obtain ⟨nodes, hl, -, -, r⟩ := C85_multinested hb _ n km fuel env idx idx' S S' h
    rw [reports_unique r hg]
    exact far nodes hl r.one

/-! ### The part that holds -/

theorem gaussDiag_measurable_center {bw : ℝ} (x : Fin d → ℝ) : Measurable fun y => gaussDiag y (fun _ => bw) x := by
  unfold gaussDiag
  fun_prop

theorem gaussDiag_le {bw : ℝ} (hb : 0 < bw) (y x : Fin d → ℝ) :
    gaussDiag y (fun _ => bw) x ≤ ((Real.sqrt (2 * Real.pi * bw))⁻¹) ^ d := by
  rw [gaussDiag_eq_prod y _ (fun _ => hb)]
  refine (Finset.prod_le_prod (fun k _ => gaussianPDFReal_nonneg _ _ _) fun k _ => gaussianPDFReal_le _ _ _).trans ?_
  rw [Finset.prod_const, Finset.card_univ, Fintype.card_fin]
  exact le_rfl

/-- **C137, partial** Rejection sampling with a scaled proposal that dominates the target: with probability one, however the
requests are split over calls, the reported density at `x` (the exponential of `log_prob`), averaged over the random choice of
the kernels, tends to the normalised target smoothed with the kernel, as the number of samples grows. Missing with respect to
C137: the target itself instead of the smoothed one, and the value for one choice of the kernels instead of the average over
the choices. -/
theorem C137_partial {t q : (Fin d → ℝ) → ℝ} {s : ℝ} {k : ℕ} (hs : 0 < s) (hk : 0 < k) (hq : Rejection.IsDensity q)
    (htm : Measurable t) (ht : ∀ x, 0 ≤ t x) (henv : ∀ x, t x ≤ s * q x) (hpos : 0 < ∫ x, t x) {bw : ℝ} (hb : 0 < bw)
    (x : Fin d → ℝ) :
    ∀ᵐ ω ∂Rejection.streamLaw q, ∀ δ > 0, ∃ N, ∀ n ≥ N, ∀ S, Rejection.Fed (Rejection.densCfg t q s k) ω S →
      S.samples.length ≤ n → ∀ (m : ℕ) (idx' : ℕ → ℕ) (S' : (ℕ → ℕ) → Rejection.Rej d) (l : (ℕ → ℕ) → ℝ),
      (∀ idx, Rejection.importanceSample (Rejection.densCfg t q s k) n false
        (Rejection.streamScript (Rejection.densCfg t q s k) n ω m S) idx S = .done (S' idx)) →
      (∀ idx, logProb bw k idx' (S' idx).samples (S' idx).kde [x] = .ok [.fin (l idx)]) →
      |overIndices k n (fun idx => Real.exp (l idx)) - (∫ y, gaussDiag y (fun _ => bw) x * t y) / ∫ y, t y| < δ := by
  have hti : Integrable t := by
    by_contra h
    rw [integral_undef h] at hpos
    exact lt_irrefl _ hpos
  have hi : Integrable fun y => gaussDiag y (fun _ => bw) x * t y := by
    refine hti.bdd_mul (c := ((Real.sqrt (2 * Real.pi * bw))⁻¹) ^ d) (gaussDiag_measurable_center x).aestronglyMeasurable
      (Eventually.of_forall fun y => ?_)
    rw [Real.norm_eq_abs, abs_of_nonneg (gaussDiag_nonneg _ _ _)]
    exact gaussDiag_le hb y x
  filter_upwards [Rejection.C132_consistent (k := k) hs hk hq htm ht henv hpos (gaussDiag_measurable_center x) hi] with ω hω
  intro δ hδ
  obtain ⟨N, hN⟩ := hω.2 δ hδ
  refine ⟨max N 1, fun n hn S hS hl m idx' S' l hc hlog => ?_⟩
  have hn0 : 0 < n := by omega
  obtain ⟨hlen, hlt⟩ := hN n (by omega) S hS hl m (fun _ => 0) _ (hc fun _ => 0)
  have hsame : ∀ idx, (S' idx).samples = (S' fun _ => 0).samples := by
    intro idx
    obtain ⟨S1, hw, e1, -, -⟩ := Rejection.call_inv (hc idx)
    obtain ⟨S2, hw', e2, -, -⟩ := Rejection.call_inv (hc fun _ => 0)
    rw [hw] at hw'
    cases hw'
    rw [e1, e2]
  generalize hxs : (S' fun _ => 0).samples = xs at hsame hlen
  have hval : ∀ idx, Real.exp (l idx) =
      ((List.range k).map fun j => gaussDiag (xs.getD (idx j % n) 0) (fun _ => bw) x).sum / k := by
    intro idx
    obtain ⟨nodes, hnl, -, hj, r, hp, -⟩ := C85_rejection_partial hb _ n false _ idx idx' S (S' idx) (hc idx)
    have h2 := hlog idx
    rw [show k = (Rejection.densCfg t q s k).nKde from rfl, r] at h2
    simp only [List.map_cons, List.map_nil] at h2
    injection h2 with h2
    simp at h2
    rw [← h2, Real.exp_log (hp x)]
    unfold estimate
    have hnl' : nodes.length = k := hnl
    rw [hnl']
    congr 2
    refine List.ext_getElem (by simp [hnl']) fun j h3 h4 => ?_
    simp only [List.getElem_map, List.getElem_range]
    have hjk : j < k := by simpa [hnl'] using h3
    have h5 := hj j hjk
    rw [hsame, hlen] at h5
    rw [List.getElem?_eq_getElem (by omega)] at h5
    have : nodes[j] = xs.getD (idx j % n) 0 := by
      rw [List.getD_eq_getElem?_getD, ← h5]
      rfl
    rw [this]
  have e : overIndices k n (fun idx => Real.exp (l idx)) = Rejection.average (fun y => gaussDiag y (fun _ => bw) x)
      (S' fun _ => 0) := by
    rw [funext hval, overIndices_mean hk hn0 fun i => gaussDiag (xs.getD i 0) (fun _ => bw) x]
    unfold Rejection.average
    rw [hxs, hlen]
    congr 2
    refine List.ext_getElem (by simp [hlen]) fun j h3 h4 => ?_
    have hj : j < xs.length := by simpa using h4
    simp [hj]
  rw [e]
  exact hlt

theorem cube_isDensity {L : ℝ} (hL : 0 < L) : Rejection.IsDensity (cube d L) := by
  have h := cube_density (d := d) hL
  refine ⟨measurable_const.indicator measurableSet_Icc, h.nonneg, ?_⟩
  rw [← ofReal_integral_eq_lintegral_ofReal h.int (Eventually.of_forall h.nonneg), h.one, ENNReal.ofReal_one]

/-- The hypotheses of `C137_partial` and the calls of `C137_refuted` occur together: the target of `C137_refuted` with itself as
proposal. With probability one every request for samples returns. -/
example : ∃ t : (Fin 2 → ℝ) → ℝ, Rejection.IsDensity t ∧ Density t ∧ (∀ x, t x * (4 * (5 : ℕ) * (4 * Real.sqrt ((2 : ℕ) * (1 / 100))) ^ 2) ≤ 1) ∧
    ∀ᵐ ω ∂Rejection.streamLaw t, ∀ n, 0 < n → ∃ m S',
      Rejection.importanceSample (Rejection.densCfg t t 1 5) n false
        (Rejection.streamScript (Rejection.densCfg t t 1 5) n ω m Rejection.init) id Rejection.init = .done S' := by
  have hL : 0 < 16 * ((5 : ℕ) : ℝ) * Real.sqrt ((2 : ℕ) * (1 / 100)) := by positivity
  have hq := cube_isDensity (d := 2) hL
  have ht := cube_density (d := 2) hL
  refine ⟨_, hq, ht, fun x => cube_flat (by norm_num) (by norm_num) (by norm_num) x, ?_⟩
  filter_upwards [Rejection.C132_consistent (s := 1) (k := 5) (f := fun _ => 1) one_pos (by norm_num) hq hq.meas hq.nonneg
    (fun x => by rw [one_mul]) (by rw [ht.one]; exact one_pos) measurable_const (by simpa using ht.int)] with ω hω n hn
  exact hω.1 _ .new n hn id

end KDE
end Verif
