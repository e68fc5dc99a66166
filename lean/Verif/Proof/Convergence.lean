import Verif.Model.MetricCompute
import Verif.Props.MCIntegral
import Verif.Props.Metrics
import Mathlib.Probability.StrongLaw
import Mathlib.Probability.Independence.InfinitePi

/-!
# Averages over the evaluation points of the metrics
-/

set_option linter.unusedSectionVars false
set_option autoImplicit false

namespace Verif
namespace MetricCompute

open MeasureTheory Set MCInt Filter Topology ProbabilityTheory

variable {d : ℕ}

/-- Law of the random numbers: independent points of the unit cube, one for each evaluation sample. -/
noncomputable def uniformStream (d : ℕ) : Measure (ℕ → Fin d → ℝ) := Measure.infinitePi fun _ => uniformDraw d

instance : IsProbabilityMeasure (uniformStream d) := by unfold uniformStream; infer_instance

/-- One evaluation point. -/
def pt (a b : Fin d → ℝ) (u : Fin d → ℝ) : Fin d → ℝ := fun i => npUniform (a i) (b i) (u i)

theorem pt_measurable (a b : Fin d → ℝ) : Measurable (pt a b) := by
  unfold pt npUniform
  refine measurable_pi_lambda _ fun k => ?_
  have : Measurable fun u : Fin d → ℝ => u k := measurable_pi_apply k
  fun_prop

theorem measurableSet_box (a b : Fin d → ℝ) : MeasurableSet (box a b) := MeasurableSet.univ_pi fun _ => measurableSet_Ico

/-- Volume of the box. -/
def vol (a b : Fin d → ℝ) : ℝ := ∏ k, (b k - a k)

theorem vol_pos {a b : Fin d → ℝ} (hab : ∀ k, a k < b k) : 0 < vol a b := Finset.prod_pos fun k _ => sub_pos.2 (hab k)

theorem map_pt (a b : Fin d → ℝ) (hab : ∀ k, a k < b k) :
    (uniformDraw d).map (pt a b) = (ENNReal.ofReal (vol a b))⁻¹ • (volume : Measure (Fin d → ℝ)).restrict (box a b) := by
  have hv := vol_pos hab
  ext s hs
  have h := lintegral_box a b hab (s.indicator 1) (measurable_one.indicator hs)
  rw [lintegral_indicator_one hs] at h
  have e : ∫⁻ u, s.indicator (1 : (Fin d → ℝ) → ENNReal) (fun k => npUniform (a k) (b k) (u k)) ∂(uniformDraw d) =
      (uniformDraw d).map (pt a b) s := by
    rw [Measure.map_apply (pt_measurable a b) hs, ← lintegral_indicator_one (pt_measurable a b hs)]
    rfl
  rw [e] at h
  rw [Measure.smul_apply, ← h, smul_eq_mul, ← mul_assoc]
  show _ = (ENNReal.ofReal (vol a b))⁻¹ * ENNReal.ofReal (vol a b) * _
  rw [ENNReal.inv_mul_cancel (by simpa using hv) ENNReal.ofReal_ne_top, one_mul]

/-- The strong law of large numbers for functions of independent draws. -/
theorem slln_iid {α : Type*} [MeasurableSpace α] (ν : Measure α) [IsProbabilityMeasure ν] (f : α → ℝ) (hm : Measurable f)
    (hint : Integrable f ν) :
    ∀ᵐ ω ∂(Measure.infinitePi fun _ : ℕ => ν), Tendsto (fun n : ℕ => (∑ k ∈ Finset.range n, f (ω k)) / n) atTop
      (𝓝 (∫ u, f u ∂ν)) := by
  have hind : iIndepFun (fun (k : ℕ) (ω : ℕ → α) => f (ω k)) (Measure.infinitePi fun _ : ℕ => ν) :=
    iIndepFun_infinitePi (X := fun _ u => f u) fun _ => hm
  have hmp : ∀ k : ℕ, MeasurePreserving (fun ω : ℕ → α => ω k) (Measure.infinitePi fun _ : ℕ => ν) ν :=
    fun k => measurePreserving_eval_infinitePi (fun _ => ν) k
  have h := strong_law_ae_real (fun (k : ℕ) (ω : ℕ → α) => f (ω k))
    ((hmp 0).integrable_comp_of_integrable hint) (fun i j hij => hind.indepFun hij) fun i => by
      refine ⟨(hm.comp (measurable_pi_apply i)).aemeasurable, (hm.comp (measurable_pi_apply 0)).aemeasurable, ?_⟩
      have e : ∀ k : ℕ, (Measure.infinitePi fun _ : ℕ => ν).map (fun ω => f (ω k)) = ν.map f := by
        intro k
        conv_rhs => rw [← (hmp k).map_eq]
        rw [Measure.map_map hm (measurable_pi_apply k)]
        rfl
      rw [e i, e 0]
  have e0 : ∫ ω, f (ω 0) ∂(Measure.infinitePi fun _ : ℕ => ν) = ∫ u, f u ∂ν := by
    conv_rhs => rw [← (hmp 0).map_eq]
    rw [integral_map (measurable_pi_apply 0).aemeasurable hm.aestronglyMeasurable]
  rw [e0] at h
  exact h

theorem integral_pt (a b : Fin d → ℝ) (hab : ∀ k, a k < b k) (f : (Fin d → ℝ) → ℝ) (hf : Measurable f)
    (hi : IntegrableOn f (box a b)) :
    Integrable (fun u => f (pt a b u)) (uniformDraw d) ∧
      ∫ u, f (pt a b u) ∂(uniformDraw d) = (∫ x in box a b, f x) / vol a b := by
  have hv := vol_pos hab
  constructor
  · have : Integrable f ((uniformDraw d).map (pt a b)) := by
      rw [map_pt a b hab]
      exact hi.smul_measure (ENNReal.inv_ne_top.2 (by simpa using hv))
    exact (integrable_map_measure hf.aestronglyMeasurable (pt_measurable a b).aemeasurable).1 this
  · rw [← integral_map (pt_measurable a b).aemeasurable hf.aestronglyMeasurable, map_pt a b hab, integral_smul_measure,
      ENNReal.toReal_inv, ENNReal.toReal_ofReal hv.le, smul_eq_mul, div_eq_inv_mul]

/-- The average over the evaluation points converges to the average over the box. -/
theorem slln (a b : Fin d → ℝ) (hab : ∀ k, a k < b k) (f : (Fin d → ℝ) → ℝ) (hf : Measurable f)
    (hi : IntegrableOn f (box a b)) :
    ∀ᵐ ω ∂(uniformStream d), Tendsto (fun n : ℕ => (∑ k ∈ Finset.range n, f (pt a b (ω k))) / n) atTop
      (𝓝 ((∫ x in box a b, f x) / vol a b)) := by
  obtain ⟨h1, h2⟩ := integral_pt a b hab f hf hi
  rw [← h2]
  exact slln_iid (uniformDraw d) _ (hf.comp (pt_measurable a b)) h1

/-! ### Sums over the points where both densities are positive -/

theorem sum_filter_map {α : Type*} (L : List α) (c : α → Bool) (f : α → ℝ) :
    ((L.filter c).map f).sum = (L.map fun x => if c x then f x else 0).sum := by
  induction L with
  | nil => rfl
  | cons x L ih =>
    by_cases h : c x = true
    · rw [List.filter_cons_of_pos h]
      simp [ih, h]
    · rw [List.filter_cons_of_neg h]
      simp [ih, h]

theorem sum_map_sub {α : Type*} (L : List α) (f g : α → ℝ) :
    (L.map fun x => f x - g x).sum = (L.map f).sum - (L.map g).sum := by
  induction L with
  | nil => simp
  | cons x L ih => simp only [List.map_cons, List.sum_cons, ih]; ring

theorem sum_range_map (g : ℕ → ℝ) (n : ℕ) : ((List.range n).map g).sum = ∑ k ∈ Finset.range n, g k := by
  induction n with
  | zero => rfl
  | succ n ih => rw [List.range_succ, List.map_append, List.sum_append, ih, Finset.sum_range_succ]; simp

/-- The points where both densities are positive. -/
def both (p q : (Fin d → ℝ) → ℝ) : Set (Fin d → ℝ) := {x | 0 < p x ∧ 0 < q x}

theorem measurableSet_both {p q : (Fin d → ℝ) → ℝ} (hp : Measurable p) (hq : Measurable q) :
    MeasurableSet (both p q) :=
  (measurableSet_lt measurable_const hp).inter (measurableSet_lt measurable_const hq)

/-- Values of the two densities at the evaluation points. -/
def vals (p q : (Fin d → ℝ) → ℝ) (a b : Fin d → ℝ) (u : ℕ → Fin d → ℝ) (n : ℕ) : List (ℝ × ℝ) :=
  (evalSamples a b u n).map fun x => (p x, q x)

theorem evalSamples_eq (a b : Fin d → ℝ) (u : ℕ → Fin d → ℝ) (n : ℕ) :
    evalSamples a b u n = (List.range n).map fun k => pt a b (u k) := rfl

theorem common_sum (p q : (Fin d → ℝ) → ℝ) (a b : Fin d → ℝ) (u : ℕ → Fin d → ℝ) (n : ℕ) (f : ℝ × ℝ → ℝ) :
    ((common (vals p q a b u n)).map f).sum =
      ∑ k ∈ Finset.range n, (both p q).indicator (fun x => f (p x, q x)) (pt a b (u k)) := by
  unfold common vals
  rw [sum_filter_map, evalSamples_eq, List.map_map, List.map_map, sum_range_map]
  refine Finset.sum_congr rfl fun k _ => ?_
  simp only [Function.comp, decide_eq_true_eq, indicator, both, mem_setOf_eq]

theorem kl_val (p q : (Fin d → ℝ) → ℝ) (a b : Fin d → ℝ) (u : ℕ → Fin d → ℝ) (n : ℕ) (hn : 0 < n) :
    kl (fun x => XF.log (.fin (p x))) (fun x => XF.log (.fin (q x))) a b u n =
      .ok (.fin (KL.real (common (vals p q a b u n)))) := by
  have hD : vals p q a b u n ≠ [] := by
    intro h
    have := congrArg List.length h
    simp [vals, evalSamples] at this
    omega
  rw [← kl_value _ hD]
  unfold kl logArrays vals
  rw [List.map_map]
  rfl

theorem jsd_val (p q : (Fin d → ℝ) → ℝ) (a b : Fin d → ℝ) (u : ℕ → Fin d → ℝ) (n : ℕ) (hn : 0 < n) :
    jsd (fun x => .fin (p x)) (fun x => .fin (q x)) a b u n =
      .ok (.fin (JSD.real (common (vals p q a b u n)) / Real.log 2)) := by
  unfold jsd
  refine JSD.compute_fin _ ?_ (common_pos _) ?_
  · intro h
    have := congrArg List.length h
    simp [evalSamples] at this
    omega
  · unfold common vals
    rw [List.filter_map, List.filter_map, List.map_map]
    have : (JSD.inlier ∘ fun x => ((XF.fin (p x), XF.fin (q x)) : XF ℝ × XF ℝ)) =
        ((fun x : ℝ × ℝ => decide (0 < x.1 ∧ 0 < x.2)) ∘ fun x => (p x, q x)) := by
      funext x
      simp [JSD.inlier, XF.ltb, XF.isNan]
    rw [this]
    rfl

theorem kl_real_eq {r : List (ℝ × ℝ)} (h : KL.Pos r) (hr : r ≠ []) :
    KL.real r = (r.map fun x => x.1 * Real.log (x.1 / x.2)).sum / (r.map Prod.fst).sum -
      Real.log ((r.map Prod.fst).sum / (r.map Prod.snd).sum) := by
  have h1 := h.sum_fst hr
  have h2 := h.sum_snd hr
  unfold KL.real
  have e : ∀ x ∈ r, x.1 / (r.map Prod.fst).sum *
      (Real.log (x.1 / (r.map Prod.fst).sum) - Real.log (x.2 / (r.map Prod.snd).sum)) =
      x.1 * Real.log (x.1 / x.2) * (r.map Prod.fst).sum⁻¹ -
        x.1 * (Real.log ((r.map Prod.fst).sum / (r.map Prod.snd).sum) / (r.map Prod.fst).sum) := by
    intro x hx
    obtain ⟨hp, hq⟩ := h x hx
    rw [Real.log_div hp.ne' h1.ne', Real.log_div hq.ne' h2.ne', Real.log_div hp.ne' hq.ne', Real.log_div h1.ne' h2.ne']
    field_simp
    ring
  rw [List.map_congr_left e]
  have : (r.map fun x => x.1 * Real.log (x.1 / x.2) * (r.map Prod.fst).sum⁻¹ -
        x.1 * (Real.log ((r.map Prod.fst).sum / (r.map Prod.snd).sum) / (r.map Prod.fst).sum)).sum =
      (r.map fun x => x.1 * Real.log (x.1 / x.2)).sum * (r.map Prod.fst).sum⁻¹ -
        (r.map Prod.fst).sum * (Real.log ((r.map Prod.fst).sum / (r.map Prod.snd).sum) / (r.map Prod.fst).sum) := by
    rw [sum_map_sub, List.sum_map_mul_right, List.sum_map_mul_right]
  rw [this, mul_div_cancel₀ _ h1.ne', ← div_eq_mul_inv]

/-- First half of a term of the Jensen-Shannon divergence, `c` is the ratio of the two sums. -/
noncomputable def jsP (c : ℝ) (x : ℝ × ℝ) : ℝ := x.1 * Real.log (2 * x.1 / (x.1 + c * x.2))

/-- Second half. -/
noncomputable def jsQ (c : ℝ) (x : ℝ × ℝ) : ℝ := x.2 * Real.log (2 * c * x.2 / (x.1 + c * x.2))

theorem js_real_eq {r : List (ℝ × ℝ)} (h : KL.Pos r) (hr : r ≠ []) :
    JSD.real r = 1/2 * ((r.map (jsP ((r.map Prod.fst).sum / (r.map Prod.snd).sum))).sum / (r.map Prod.fst).sum) +
      1/2 * ((r.map (jsQ ((r.map Prod.fst).sum / (r.map Prod.snd).sum))).sum / (r.map Prod.snd).sum) := by
  have h1 := h.sum_fst hr
  have h2 := h.sum_snd hr
  obtain ⟨s, hs⟩ : ∃ s, s = (r.map Prod.fst).sum := ⟨_, rfl⟩
  obtain ⟨t, ht⟩ : ∃ t, t = (r.map Prod.snd).sum := ⟨_, rfl⟩
  unfold JSD.real
  rw [← hs] at h1 ⊢
  rw [← ht] at h2 ⊢
  have e : ∀ x ∈ r, 1/2 * (x.1 / s) * Real.log (x.1 / s / (1/2 * (x.1 / s + x.2 / t))) +
      1/2 * (x.2 / t) * Real.log (x.2 / t / (1/2 * (x.1 / s + x.2 / t))) =
      1/2 * s⁻¹ * jsP (s / t) x + 1/2 * t⁻¹ * jsQ (s / t) x := by
    intro x hx
    obtain ⟨hp, hq⟩ := h x hx
    have a1 : x.1 / s / (1/2 * (x.1 / s + x.2 / t)) = 2 * x.1 / (x.1 + s / t * x.2) := by
      field_simp
    have a2 : x.2 / t / (1/2 * (x.1 / s + x.2 / t)) = 2 * (s / t) * x.2 / (x.1 + s / t * x.2) := by
      field_simp
    rw [a1, a2]
    unfold jsP jsQ
    ring
  show (r.map fun x => 1/2 * (x.1 / s) * Real.log (x.1 / s / (1/2 * (x.1 / s + x.2 / t))) +
      1/2 * (x.2 / t) * Real.log (x.2 / t / (1/2 * (x.1 / s + x.2 / t)))).sum = _
  rw [List.map_congr_left e, List.sum_map_add, List.sum_map_mul_left, List.sum_map_mul_left]
  ring

/-- Changing the ratio changes the logarithms by at most the change of the logarithm of the ratio. -/
theorem log_ratio {p q c c' : ℝ} (hp : 0 < p) (hq : 0 < q) (hc : 0 < c) (hc' : 0 < c') :
    |Real.log (2 * p / (p + c * q)) - Real.log (2 * p / (p + c' * q))| ≤ |Real.log c - Real.log c'| ∧
    |Real.log (2 * c * q / (p + c * q)) - Real.log (2 * c' * q / (p + c' * q))| ≤ |Real.log c - Real.log c'| := by
  wlog h : c' ≤ c generalizing c c'
  · have := this hc' hc (not_le.1 h).le
    rw [abs_sub_comm, abs_sub_comm (Real.log c), abs_sub_comm (Real.log (2 * c * q / _))]
    exact this
  have h1 : 0 < p + c * q := by positivity
  have h2 : 0 < p + c' * q := by positivity
  have l1 : Real.log (p + c' * q) ≤ Real.log (p + c * q) :=
    Real.log_le_log h2 (by nlinarith)
  have l2 : Real.log (p + c * q) + Real.log c' ≤ Real.log (p + c' * q) + Real.log c := by
    rw [← Real.log_mul h1.ne' hc'.ne', ← Real.log_mul h2.ne' hc.ne']
    exact Real.log_le_log (by positivity) (by nlinarith)
  have l3 : Real.log c' ≤ Real.log c := Real.log_le_log hc' h
  rw [Real.log_div (by positivity) h1.ne', Real.log_div (by positivity) h2.ne', Real.log_div (by positivity) h1.ne',
    Real.log_div (by positivity) h2.ne', Real.log_mul (by positivity) hq.ne', Real.log_mul (by positivity) hq.ne',
    Real.log_mul two_ne_zero hc.ne', Real.log_mul two_ne_zero hc'.ne', abs_of_nonneg (sub_nonneg.2 l3)]
  constructor <;> rw [abs_le] <;> constructor <;> linarith

theorem jsP_bound {p q c : ℝ} (hp : 0 < p) (hq : 0 < q) (hc : 0 < c) : |jsP c (p, q)| ≤ p + c * q := by
  have h1 : 0 < p + c * q := by positivity
  have h2 : 0 < 2 * p / (p + c * q) := by positivity
  unfold jsP
  show |p * Real.log (2 * p / (p + c * q))| ≤ p + c * q
  have hu := Real.log_le_sub_one_of_pos h2
  have hl := Real.one_sub_inv_le_log_of_pos h2
  have u : p * Real.log (2 * p / (p + c * q)) ≤ p := by
    have : 2 * p / (p + c * q) ≤ 2 := by rw [div_le_iff₀ h1]; nlinarith
    nlinarith
  have l : -(p + c * q) ≤ p * Real.log (2 * p / (p + c * q)) := by
    have : p * (1 - (2 * p / (p + c * q))⁻¹) = p - (p + c * q) / 2 := by field_simp
    nlinarith
  rw [abs_le]
  constructor
  · exact l
  · nlinarith

theorem jsQ_bound {p q c : ℝ} (hp : 0 < p) (hq : 0 < q) (hc : 0 < c) : |jsQ c (p, q)| ≤ q + p / c := by
  have h1 : 0 < p + c * q := by positivity
  have h2 : 0 < 2 * c * q / (p + c * q) := by positivity
  unfold jsQ
  show |q * Real.log (2 * c * q / (p + c * q))| ≤ q + p / c
  have hu := Real.log_le_sub_one_of_pos h2
  have hl := Real.one_sub_inv_le_log_of_pos h2
  have hpc : 0 < p / c := by positivity
  have u : q * Real.log (2 * c * q / (p + c * q)) ≤ q := by
    have : 2 * c * q / (p + c * q) ≤ 2 := by rw [div_le_iff₀ h1]; nlinarith
    nlinarith
  have l : -(q + p / c) ≤ q * Real.log (2 * c * q / (p + c * q)) := by
    have : q * (1 - (2 * c * q / (p + c * q))⁻¹) = q / 2 - p / c / 2 := by field_simp; ring
    nlinarith
  rw [abs_le]
  constructor
  · exact l
  · linarith

end MetricCompute
end Verif
