import Verif.Model.NESS
import Verif.Proof.Metrics
import Mathlib.Algebra.Order.BigOperators.Group.List
import Mathlib.Tactic

/-!
# Properties C23, C24, C25: effective sample sizes
-/

set_option linter.unusedSectionVars false
set_option autoImplicit false

namespace Verif

variable {K : Type*} [Field K] [LinearOrder K] [IsStrictOrderedRing K] {d : ℕ}

/-! ### Sums of squares -/

theorem NESS.sum_sq_sub (l : List K) (m : K) :
    (l.map fun x => (x - m) ^ 2).sum = (l.map fun x => x * x).sum - 2 * m * l.sum + l.length * m ^ 2 := by
  induction l with
  | nil => simp
  | cons a l ih => simp only [List.map_cons, List.sum_cons, ih, List.length_cons]; push_cast; ring

theorem NESS.sum_sq_nonneg (l : List K) (f : K → K) : 0 ≤ (l.map fun x => f x ^ 2).sum := by
  apply List.sum_nonneg
  intro x hx
  obtain ⟨y, -, rfl⟩ := List.mem_map.1 hx
  positivity

theorem NESS.sum_sq_eq_zero (l : List K) (f : K → K) (h : (l.map fun x => f x ^ 2).sum = 0) : ∀ x ∈ l, f x = 0 := by
  induction l with
  | nil => simp
  | cons a l ih =>
    simp only [List.map_cons, List.sum_cons] at h
    have h1 := NESS.sum_sq_nonneg l f
    have h2 : 0 ≤ f a ^ 2 := by positivity
    intro x hx
    rcases List.mem_cons.1 hx with rfl | hx
    · have : f x ^ 2 = 0 := by linarith
      exact pow_eq_zero_iff (by norm_num) |>.1 this
    · exact ih (by linarith) x hx

/-- Cauchy-Schwarz with the vector of ones. -/
theorem NESS.sq_sum_le (l : List K) : l.sum * l.sum ≤ l.length * (l.map fun x => x * x).sum := by
  rcases Nat.eq_zero_or_pos l.length with h | h
  · rw [List.length_eq_zero_iff.1 h]; simp
  · have hn : (0 : K) < l.length := by exact_mod_cast h
    have h1 := NESS.sum_sq_nonneg l (fun x => x - l.sum / l.length)
    rw [NESS.sum_sq_sub] at h1
    have h2 : (l.map fun x => x * x).sum - 2 * (l.sum / l.length) * l.sum + l.length * (l.sum / l.length) ^ 2
      = ((l.length : K) * (l.map fun x => x * x).sum - l.sum * l.sum) / l.length := by
      field_simp; ring
    rw [h2] at h1
    have := (div_nonneg_iff.1 h1)
    rcases this with ⟨h, -⟩ | ⟨-, h⟩
    · linarith
    · linarith

theorem NESS.sq_sum_eq (l : List K) (he : l.sum * l.sum = l.length * (l.map fun x => x * x).sum) :
    ∀ x ∈ l, ∀ y ∈ l, x = y := by
  rcases Nat.eq_zero_or_pos l.length with h | h
  · rw [List.length_eq_zero_iff.1 h]; simp
  · have hn : (0 : K) < l.length := by exact_mod_cast h
    have h1 : (l.map fun x => (x - l.sum / l.length) ^ 2).sum = 0 := by
      rw [NESS.sum_sq_sub]
      have h2 : (l.map fun x => x * x).sum - 2 * (l.sum / l.length) * l.sum + l.length * (l.sum / l.length) ^ 2
        = ((l.length : K) * (l.map fun x => x * x).sum - l.sum * l.sum) / l.length := by
        field_simp; ring
      rw [h2, ← he, sub_self, zero_div]
    intro x hx y hy
    have hx' := NESS.sum_sq_eq_zero l (fun x => x - l.sum / l.length) h1 x hx
    have hy' := NESS.sum_sq_eq_zero l (fun x => x - l.sum / l.length) h1 y hy
    linarith

theorem NESS.sq_sum_of_const (l : List K) (h : ∀ x ∈ l, ∀ y ∈ l, x = y) :
    l.sum * l.sum = l.length * (l.map fun x => x * x).sum := by
  cases l with
  | nil => simp
  | cons a l =>
    have : a :: l = List.replicate (l.length + 1) a := by
      apply List.eq_replicate_iff.2
      exact ⟨rfl, fun b hb => h b hb a (by simp)⟩
    rw [this]
    simp
    ring

theorem NESS.sum_nonneg' {l : List K} (h : ∀ x ∈ l, 0 ≤ x) : 0 ≤ l.sum := List.sum_nonneg h

theorem NESS.sum_sq_le (l : List K) (h : ∀ x ∈ l, 0 ≤ x) : (l.map fun x => x * x).sum ≤ l.sum * l.sum := by
  induction l with
  | nil => simp
  | cons a l ih =>
    have h1 := ih fun x hx => h x (by simp [hx])
    have h2 := NESS.sum_nonneg' (l := l) fun x hx => h x (by simp [hx])
    have h3 := h a (by simp)
    simp only [List.map_cons, List.sum_cons]
    nlinarith [mul_nonneg h3 h2]

theorem NESS.sum_eq_zero_iff {l : List K} (h : ∀ x ∈ l, 0 ≤ x) : l.sum = 0 ↔ l.filter (fun x => x ≠ 0) = [] := by
  induction l with
  | nil => simp
  | cons a l ih =>
    have h2 := NESS.sum_nonneg' (l := l) fun x hx => h x (by simp [hx])
    have h3 := h a (by simp)
    have h1 := ih fun x hx => h x (by simp [hx])
    rw [List.sum_cons, List.filter_cons]
    by_cases ha : a = 0
    · simp only [ha, zero_add, h1]; simp
    · have : 0 < a := lt_of_le_of_ne h3 (Ne.symm ha)
      simp only [ha, ne_eq, not_false_eq_true, decide_true, if_true]
      constructor
      · intro hh; linarith
      · intro hh; simp at hh

theorem NESS.sum_sq_eq_iff (l : List K) (h : ∀ x ∈ l, 0 ≤ x) :
    (l.map fun x => x * x).sum = l.sum * l.sum ↔ (l.filter fun x => x ≠ 0).length ≤ 1 := by
  induction l with
  | nil => simp
  | cons a l ih =>
    have hl : ∀ x ∈ l, 0 ≤ x := fun x hx => h x (by simp [hx])
    have h1 := NESS.sum_sq_le l hl
    have h2 := NESS.sum_nonneg' (l := l) hl
    have h3 := h a (by simp)
    rw [List.filter_cons]
    simp only [List.map_cons, List.sum_cons]
    by_cases ha : a = 0
    · simp only [ha, zero_add, mul_zero, ne_eq, not_true_eq_false, decide_false]
      exact ih hl
    · have hp : 0 < a := lt_of_le_of_ne h3 (Ne.symm ha)
      simp only [ha, ne_eq, not_false_eq_true, decide_true, if_true, List.length_cons]
      constructor
      · intro hh
        have : a * l.sum = 0 := by nlinarith [mul_nonneg h3 h2]
        have hs : l.sum = 0 := by
          rcases mul_eq_zero.1 this with h | h
          · exact absurd h ha
          · exact h
        have := (NESS.sum_eq_zero_iff hl).1 hs
        simp only [ne_eq] at this
        rw [this]; simp
      · intro hh
        have : (l.filter fun x => x ≠ 0) = [] := List.length_eq_zero_iff.1 (by simp only [ne_eq]; omega)
        have hs := (NESS.sum_eq_zero_iff hl).2 this
        have : (l.map fun x => x * x).sum = 0 := by
          apply le_antisymm (by rw [hs] at h1; simpa using h1)
          apply List.sum_nonneg
          intro x hx
          obtain ⟨y, hy, rfl⟩ := List.mem_map.1 hx
          exact mul_self_nonneg y
        rw [hs, this]; ring

/-! ### Value of the two implementations -/

/-- The effective sample size fraction of weights `ws` in closed form. -/
def essFraction (ws : List K) : K := ws.sum ^ 2 / ((ws.length : K) * (ws.map fun w => w * w).sum)

theorem NESS.sum_sq_pos (ws : List K) (hs : 0 < ws.sum) : 0 < (ws.map fun w => w * w).sum := by
  have h1 := NESS.sq_sum_le ws
  have h2 : 0 < ws.sum * ws.sum := by positivity
  have h3 : (0 : K) ≤ ws.length := by positivity
  by_contra hc
  have := mul_nonpos_of_nonneg_of_nonpos h3 (not_lt.1 hc)
  linarith

theorem NESS.length_pos (ws : List K) (hs : 0 < ws.sum) : 0 < ws.length := by
  cases ws with
  | nil => simp at hs
  | cons a l => simp

theorem NESS.treePyramid_eq (ws : List K) (hs : 0 < ws.sum) :
    NESS.treePyramid (ws.map XF.fin) ws.length = XF.fin (essFraction ws) := by
  have h1 := NESS.sum_sq_pos ws hs
  have h2 : (0 : K) < ws.length := by exact_mod_cast NESS.length_pos ws hs
  unfold NESS.treePyramid essFraction
  have e2 : ((ws.map XF.fin).map fun w => w * w).sum = XF.fin (ws.map fun w => w * w).sum := by
    rw [List.map_map]
    refine Eq.trans ?_ (XF.sum_map_fin _)
    rw [List.map_map]; rfl
  rw [e2, XF.sum_map_fin, XF.fin_mul, XF.fin_div_ne _ _ h1.ne', XF.fin_div_ne _ _ h2.ne']
  congr 1
  field_simp

theorem NESS.approx_eq (ws : List K) (hs : 0 < ws.sum) :
    NESS.approx (ws.map XF.fin) ws.length = XF.fin (essFraction ws) := by
  have h1 := NESS.sum_sq_pos ws hs
  have h2 : (0 : K) < ws.length := by exact_mod_cast NESS.length_pos ws hs
  unfold NESS.approx essFraction
  have e1 : ((ws.map XF.fin).map fun w => w / (ws.map XF.fin).sum) = (ws.map fun w => w / ws.sum).map XF.fin := by
    rw [XF.sum_map_fin, List.map_map, List.map_map]
    apply List.map_congr_left
    intro w _
    exact XF.fin_div_ne _ _ hs.ne'
  have e3 : (ws.map fun w => w / ws.sum * (w / ws.sum)).sum = (ws.map fun w => w * w).sum / ws.sum ^ 2 := by
    have : (fun w : K => w / ws.sum * (w / ws.sum)) = fun w => w * w * (1 / ws.sum ^ 2) := by
      funext w; field_simp
    rw [this, List.sum_map_mul_right]; ring
  have e2 : ((((ws.map XF.fin).map fun w => w / (ws.map XF.fin).sum)).map fun w => w * w).sum
      = XF.fin ((ws.map fun w => w * w).sum / ws.sum ^ 2) := by
    rw [e1, List.map_map, ← e3]
    refine Eq.trans ?_ (XF.sum_map_fin _)
    rw [List.map_map, List.map_map]; rfl
  simp only
  rw [e2, XF.one_def, XF.fin_div_ne _ _ (by positivity), XF.fin_div_ne _ _ h2.ne']
  congr 1
  field_simp

/-- **C23** For at least one weight, all nonnegative with positive sum, both weight based effective sample sizes return
a finite number `r` with `1/n ≤ r ≤ 1`, `r = 1` exactly when all weights are equal, `r = 1/n` exactly when a single
weight is non zero, and rescaling the weights changes nothing. -/
theorem C23_weight_ness (ws : List K) (h : ∀ w ∈ ws, 0 ≤ w) (hs : 0 < ws.sum) :
    ∃ r : K, NESS.approx (ws.map XF.fin) ws.length = XF.fin r ∧
      NESS.treePyramid (ws.map XF.fin) ws.length = XF.fin r ∧
      1 / (ws.length : K) ≤ r ∧ r ≤ 1 ∧
      (r = 1 ↔ ∀ x ∈ ws, ∀ y ∈ ws, x = y) ∧
      (r = 1 / (ws.length : K) ↔ (ws.filter fun x => x ≠ 0).length = 1) ∧
      ∀ c : K, 0 < c →
        NESS.approx ((ws.map fun w => c * w).map XF.fin) ws.length = XF.fin r ∧
        NESS.treePyramid ((ws.map fun w => c * w).map XF.fin) ws.length = XF.fin r := by
  have h1 := NESS.sum_sq_pos ws hs
  have h2 : (0 : K) < ws.length := by exact_mod_cast NESS.length_pos ws hs
  have h3 : 0 < (ws.length : K) * (ws.map fun w => w * w).sum := by positivity
  refine ⟨essFraction ws, NESS.approx_eq ws hs, NESS.treePyramid_eq ws hs, ?_, ?_, ?_, ?_, ?_⟩
  · unfold essFraction
    rw [div_le_div_iff₀ h2 h3]
    have := NESS.sum_sq_le ws h
    nlinarith
  · unfold essFraction
    rw [div_le_one h3, sq]
    exact NESS.sq_sum_le ws
  · unfold essFraction
    rw [div_eq_one_iff_eq h3.ne', sq]
    exact ⟨NESS.sq_sum_eq ws, NESS.sq_sum_of_const ws⟩
  · unfold essFraction
    rw [div_eq_div_iff h3.ne' h2.ne']
    have e : (ws.sum ^ 2 * (ws.length : K) = 1 * ((ws.length : K) * (ws.map fun w => w * w).sum)) ↔
        (ws.map fun w => w * w).sum = ws.sum * ws.sum := by
      constructor
      · intro hh
        have : (ws.length : K) * (ws.map fun w => w * w).sum = (ws.length : K) * (ws.sum * ws.sum) := by
          rw [one_mul] at hh; rw [← hh]; ring
        exact mul_left_cancel₀ h2.ne' this
      · intro hh; rw [hh]; ring
    rw [e, NESS.sum_sq_eq_iff ws h]
    constructor
    · intro hh
      apply le_antisymm hh
      by_contra hc
      have h0 : (ws.filter fun x => x ≠ 0) = [] := List.length_eq_zero_iff.1 (by omega)
      exact hs.ne' ((NESS.sum_eq_zero_iff h).2 h0)
    · intro hh; exact hh.le
  · intro c hc
    have hs' : 0 < (ws.map fun w => c * w).sum := by
      rw [List.sum_map_mul_left]; simpa using mul_pos hc hs
    have hl : (ws.map fun w => c * w).length = ws.length := by simp
    have he : essFraction (ws.map fun w => c * w) = essFraction ws := by
      unfold essFraction
      have e1 : ((ws.map fun w => c * w).map fun w => w * w).sum = c ^ 2 * (ws.map fun w => w * w).sum := by
        rw [List.map_map, ← List.sum_map_mul_left]
        congr 1
        apply List.map_congr_left
        intro w _
        simp only [Function.comp]; ring
      have e2 : (ws.map fun w => c * w).sum = c * ws.sum := by rw [List.sum_map_mul_left]; simp
      rw [e1, e2, hl]
      field_simp
    have a1 := NESS.approx_eq _ hs'
    have a2 := NESS.treePyramid_eq _ hs'
    rw [hl, he] at a1 a2
    exact ⟨a1, a2⟩

/-- The hypotheses of C23 hold for unequal weights containing a zero, and the values are not degenerate. -/
example : (∀ w ∈ [(1 : ℚ), 0, 3], 0 ≤ w) ∧ 0 < [(1 : ℚ), 0, 3].sum ∧
    NESS.approx ([(1 : ℚ), 0, 3].map XF.fin) 3 = XF.fin (8/15) := by decide +kernel

/-! ### C24 -/

/-- **C24** The perplexity based effective sample size of positive weights that sum to 1 is a number in `(0, 1]`,
namely `exp(entropy)/n`, and it is 1 exactly for uniform weights. -/
theorem C24_perplexity_ness (ws : List ℝ) (h : ∀ w ∈ ws, 0 < w) (hs : ws.sum = 1) :
    ∃ r : ℝ, NESS.perplexity (ws.map XF.fin) ws.length = XF.fin r ∧
      r = Real.exp (ws.map fun w => w * Real.log (1 / w)).sum / ws.length ∧
      0 < r ∧ r ≤ 1 ∧ (r = 1 ↔ ∀ w ∈ ws, w = 1 / (ws.length : ℝ)) := by
  have hl : 0 < ws.length := NESS.length_pos ws (by rw [hs]; exact one_pos)
  have hn : (0 : ℝ) < ws.length := by exact_mod_cast hl
  have e1 : ((ws.map XF.fin).map fun w => w * XF.log w).sum = XF.fin (ws.map fun w => w * Real.log w).sum := by
    refine Eq.trans ?_ (XF.sum_map_fin _)
    rw [List.map_map, List.map_map]
    congr 1
    apply List.map_congr_left
    intro w hw
    simp only [Function.comp]
    rw [show XF.log (XF.fin w) = XF.fin (Real.log w) by
      simp [XF.log, (h w hw).not_gt, (h w hw).ne'], XF.fin_mul]
  have hneg : -(ws.map fun w => w * Real.log w).sum = (ws.map fun w => w * Real.log (1 / w)).sum := by
    have : (fun w : ℝ => w * Real.log (1 / w)) = fun w => (-1) * (w * Real.log w) := by
      funext w; rw [one_div, Real.log_inv]; ring
    rw [this, List.sum_map_mul_left]; ring
  have hsum : (ws.map fun _ => 1 / (ws.length : ℝ)).sum = 1 := by
    rw [List.map_const', List.sum_replicate, nsmul_eq_mul]; field_simp
  have hid : (ws.map fun w => w).sum = (ws.map fun _ => 1 / (ws.length : ℝ)).sum := by
    rw [hsum, List.map_id']; exact hs
  have hq : ∀ w ∈ ws, (0 : ℝ) < (fun _ => 1 / (ws.length : ℝ)) w := fun _ _ => by positivity
  have hg := gibbs ws (fun w => w) (fun _ => 1 / (ws.length : ℝ)) h hq hid
  have hexp : (ws.map fun w => w * (Real.log w - Real.log (1 / (ws.length : ℝ)))).sum
      = (ws.map fun w => w * Real.log w).sum + Real.log ws.length := by
    have : (fun w : ℝ => w * (Real.log w - Real.log (1 / (ws.length : ℝ))))
        = fun w => w * Real.log w + w * Real.log ws.length := by
      funext w; rw [one_div, Real.log_inv]; ring
    rw [this, List.sum_map_add, List.sum_map_mul_right]
    rw [List.map_id', hs, one_mul]
  refine ⟨Real.exp (ws.map fun w => w * Real.log (1 / w)).sum / ws.length, ?_, rfl, by positivity, ?_, ?_⟩
  · unfold NESS.perplexity
    rw [e1, XF.neg_fin, hneg, show XF.exp (XF.fin (ws.map fun w => w * Real.log (1 / w)).sum)
      = XF.fin (Real.exp (ws.map fun w => w * Real.log (1 / w)).sum) from rfl, XF.fin_div_ne _ _ hn.ne']
  · rw [div_le_one hn, ← hneg, ← Real.le_log_iff_exp_le hn]
    rw [hexp] at hg
    linarith
  · constructor
    · intro hr
      have : Real.exp (ws.map fun w => w * Real.log (1 / w)).sum = ws.length := by
        rw [div_eq_one_iff_eq hn.ne'] at hr; exact hr
      have h0 : (ws.map fun w => w * Real.log (1 / w)).sum = Real.log ws.length := by
        rw [← this, Real.log_exp]
      exact gibbs_eq ws (fun w => w) _ h hq hid (by rw [hexp]; linarith [hneg])
    · intro hu
      have : (ws.map fun w => w * Real.log (1 / w)).sum = Real.log ws.length := by
        have e : (ws.map fun w => w * Real.log (1 / w)) = ws.map fun _ => 1 / (ws.length : ℝ) * Real.log ws.length := by
          apply List.map_congr_left
          intro w hw
          simp only [hu w hw, one_div, inv_inv]
        rw [e, List.map_const', List.sum_replicate, nsmul_eq_mul]; field_simp
      rw [this, Real.exp_log hn, div_self hn.ne']

example : (∀ w ∈ [(1/4 : ℝ), 3/4], 0 < w) ∧ [(1/4 : ℝ), 3/4].sum = 1 := by
  constructor
  · intro w hw; simp at hw; rcases hw with rfl | rfl <;> norm_num
  · norm_num

/-- **C24**, complement: a single zero weight (a sample of zero likelihood) makes the perplexity based effective sample
size NaN. -/
theorem C24_zero_weight_nan (ws : List (XF ℝ)) (n : ℕ) (h : XF.fin 0 ∈ ws) : NESS.perplexity ws n = XF.nan := by
  have h0 : XF.log (XF.fin (0 : ℝ)) = XF.ninf := by simp [XF.log]
  have hz : (XF.fin (0 : ℝ)) * XF.log (XF.fin 0) = XF.nan := by
    rw [h0]
    show XF.neg (XF.infMul 0) = _
    simp [XF.infMul, XF.neg]
  have : (ws.map fun w => w * XF.log w).sum = XF.nan := by
    apply sum_nan_mem
    exact List.mem_map.2 ⟨_, h, hz⟩
  unfold NESS.perplexity
  rw [this]; rfl

/-! ### C25 -/

theorem NESS.loop_congr (r r' : ℕ → XF K) (h : ∀ t, r t = r' t) (left t : ℕ) (acc : List (XF K)) :
    NESS.loop r left t acc = NESS.loop r' left t acc := by
  rw [funext h]

theorem NESS.zipWith_sub_map (f : (Fin d → K) → (Fin d → K)) (g : (Fin d → K) → (Fin d → K))
    (h : ∀ a b, f a - f b = g (a - b)) (l l' : List (Fin d → K)) :
    List.zipWith (fun a b => a - b) (l.map f) (l'.map f) = (List.zipWith (fun a b => a - b) l l').map g := by
  induction l generalizing l' with
  | nil => simp
  | cons a l ih =>
    cases l' with
    | nil => simp
    | cons b l' => simp only [List.map_cons, List.zipWith_cons_cons, ih, h]

theorem NESS.sumSq_smul (s : K) (l : List (Fin d → K)) :
    NESS.sumSq (l.map fun r i => s * r i) = s ^ 2 * NESS.sumSq l := by
  unfold NESS.sumSq
  rw [List.map_map, ← List.sum_map_mul_left]
  congr 1
  apply List.map_congr_left
  intro r _
  simp only [Function.comp, Finset.mul_sum]
  exact Finset.sum_congr rfl fun i _ => by ring

theorem NESS.variogram_affine (x : List (Fin d → K)) (s : K) (c : Fin d → K) (t : ℕ) :
    NESS.variogram (x.map fun r i => s * r i + c i) t
      = XF.fin (s ^ 2 * NESS.sumSq (List.zipWith (fun a b => a - b) (x.drop t) (x.take (x.length - t))))
        / XF.fin ((x.length : K) - t) := by
  unfold NESS.variogram
  rw [List.length_map, ← List.map_drop, ← List.map_take,
    NESS.zipWith_sub_map (fun r i => s * r i + c i) (fun r i => s * r i) (by
      intro a b; funext i; simp only [Pi.sub_apply]; ring), NESS.sumSq_smul]

theorem NESS.meanAll_affine (x : List (Fin d → K)) (s c : K) (hx : x ≠ []) (hd : 0 < d) :
    NESS.meanAll (x.map fun r i => s * r i + c) = s * NESS.meanAll x + c := by
  unfold NESS.meanAll
  have hn : (x.length : K) ≠ 0 := by
    simp [hx]
  have hd' : (d : K) ≠ 0 := by
    have : d ≠ 0 := by omega
    exact_mod_cast this
  have : ((x.map fun r i => s * r i + c).map fun r => ∑ i, r i).sum
      = s * (x.map fun r => ∑ i, r i).sum + (x.length : K) * d * c := by
    rw [List.map_map]
    induction x with
    | nil => simp
    | cons a l ih =>
      simp only [List.map_cons, List.sum_cons, List.length_cons, Function.comp]
      by_cases hl : l = []
      · subst hl
        simp [Finset.sum_add_distrib, Finset.mul_sum]
      · rw [ih hl (by simp [hl])]
        simp only [Finset.sum_add_distrib, Finset.mul_sum, Finset.sum_const, Finset.card_univ, Fintype.card_fin,
          nsmul_eq_mul]
        push_cast
        rw [mul_add, Finset.mul_sum]
        ring
  rw [this, List.length_map]
  field_simp

theorem NESS.W_affine (x : List (Fin d → K)) (s c : K) (hx : x ≠ []) (hd : 0 < d) :
    NESS.W (x.map fun r i => s * r i + c)
      = XF.fin (s ^ 2 * NESS.sumSq (x.map fun r i => r i - NESS.meanAll x)) / XF.fin ((x.length : K) - 1) := by
  unfold NESS.W
  rw [NESS.meanAll_affine x s c hx hd, List.length_map, ← NESS.sumSq_smul, List.map_map, List.map_map]
  congr 3
  apply List.map_congr_left
  intro r _
  funext i
  simp only [Function.comp]; ring

theorem NESS.infMul_scale (a k : K) (hk : 0 < k) : XF.infMul (k * a) = (XF.infMul a : XF K) := by
  unfold XF.infMul
  by_cases h : 0 < a
  · rw [if_pos h, if_pos (by positivity)]
  · by_cases h' : a < 0
    · rw [if_neg h, if_pos h', if_neg, if_pos]
      · exact mul_neg_of_pos_of_neg hk h'
      · exact not_lt.2 (mul_neg_of_pos_of_neg hk h').le
    · have : a = 0 := le_antisymm (not_lt.1 h) (not_lt.1 h')
      simp [this]

theorem NESS.ratio_scale (a b m n k : K) (hk : 0 < k) (hm : m ≠ 0) (hn : n ≠ 0) :
    (XF.fin (k * a) / XF.fin m) / (XF.fin 2 * (XF.fin (k * b) / XF.fin n))
      = (XF.fin a / XF.fin m) / (XF.fin 2 * (XF.fin b / XF.fin n)) := by
  rw [XF.fin_div_ne _ _ hm, XF.fin_div_ne _ _ hm, XF.fin_div_ne _ _ hn, XF.fin_div_ne _ _ hn, XF.fin_mul, XF.fin_mul]
  by_cases hb : b = 0
  · rw [hb, XF.fin_div, XF.fin_div, if_pos (by simp), if_pos (by simp), mul_div_assoc, NESS.infMul_scale _ _ hk]
  · have h2 : (2 : K) ≠ 0 := two_ne_zero
    rw [XF.fin_div_ne, XF.fin_div_ne]
    · congr 1
      have := hk.ne'
      field_simp
    · positivity
    · have := hk.ne'
      positivity

theorem NESS.loop_congr_range (r r' : ℕ → XF K) (left t : ℕ) (ht : 1 ≤ t) (acc : List (XF K))
    (h : ∀ u, t - 1 ≤ u → u < t + left → 1 ≤ u → r u = r' u) :
    NESS.loop r left t acc = NESS.loop r' left t acc := by
  induction left generalizing t acc with
  | zero => rfl
  | succ left ih =>
    have h1 := h t (by omega) (by omega) ht
    simp only [NESS.loop]
    rw [h1]
    have ih' := fun acc => ih (t + 1) (by omega) acc fun u h1 h2 h3 => h u (by omega) (by omega) h3
    by_cases ht2 : t % 2 = 0
    · rw [h (t - 1) (by omega) (by omega) (by omega), ih']
    · rw [if_neg (fun hh => ht2 hh.1), if_neg (fun hh => ht2 hh.1), ih']

/-- The lag correlations do not change under `r ↦ s*r + c` with the same `c` in every coordinate. -/
theorem NESS.rho_affine (x : List (Fin d → K)) (s c : K) (hs : s ≠ 0) (hd : 0 < d) (t : ℕ) (h1 : 1 ≤ t)
    (ht : t < x.length) : NESS.rho (x.map fun r i => s * r i + c) t = NESS.rho x t := by
  have hx : x ≠ [] := by rintro rfl; simp at ht
  unfold NESS.rho
  rw [NESS.variogram_affine x s (fun _ => c), NESS.W_affine x s c hx hd, NESS.ratio_scale]
  · rfl
  · positivity
  · rw [sub_ne_zero]; exact_mod_cast ht.ne'
  · rw [sub_ne_zero]
    have : x.length ≠ 1 := by omega
    exact_mod_cast this

/-- **C25 (part)** Rescaling by any non zero constant and translating all coordinates by the same amount leaves the
variogram based effective sample size unchanged, for every sample array (also those with zero variance). In one
dimension these are all translations. Missing with respect to C25: translations by a vector with unequal coordinates,
see `C25_refuted`. -/
theorem C25_partial (x : List (Fin d → K)) (s c : K) (hs : s ≠ 0) :
    NESS.variogramNESS (x.map fun r i => s * r i + c) = NESS.variogramNESS x := by
  rcases Nat.eq_zero_or_pos d with hd | hd
  · subst hd
    have : (x.map fun r i => s * r i + c) = x := by
      conv_rhs => rw [← List.map_id x]
      apply List.map_congr_left
      intro r _
      funext i
      exact i.elim0
    rw [this]
  · unfold NESS.variogramNESS
    simp only [List.length_map]
    have := NESS.loop_congr_range (NESS.rho (x.map fun r i => s * r i + c)) (NESS.rho x) (x.length - 1) 1 le_rfl []
      fun u _ h2 h3 => NESS.rho_affine x s c hs hd u h3 (by omega)
    rw [this]

/-- A translated and rescaled chain of four samples in two dimensions; the value is a proper number. -/
example : NESS.variogramNESS [![0, 1], ![1, 1], ![3, 0], ![(2 : ℚ), 5]] = XF.fin 3 := by decide +kernel

/-- One dimensional arrays: C25 in full. -/
theorem C25_one_dim (x : List (Fin 1 → K)) (s : K) (hs : s ≠ 0) (c : Fin 1 → K) :
    NESS.variogramNESS (x.map fun r i => s * r i + c i) = NESS.variogramNESS x := by
  have : (fun (r : Fin 1 → K) i => s * r i + c i) = fun r i => s * r i + c 0 := by
    funext r i
    rw [Subsingleton.elim i 0]
  rw [this]
  exact C25_partial x s (c 0) hs

/-- **C25 refuted** The mean is taken over all entries of the array, not per coordinate, so in two dimensions moving
the origin along one axis changes the reported effective sample size. -/
theorem C25_refuted : ¬ ∀ (x : List (Fin 2 → ℚ)) (c : Fin 2 → ℚ),
    NESS.variogramNESS (x.map fun r => r + c) = NESS.variogramNESS x := by
  intro h
  have := h [![0, 0], ![1, 1], ![2, 0]] ![0, 10]
  revert this
  decide +kernel

theorem NESS.loop_stop (r : ℕ → XF K) (left t : ℕ) (ht : 1 ≤ t) (acc : List (XF K)) :
    ∃ T, t ≤ T ∧ T ≤ t + left ∧ NESS.loop r left t acc = acc ++ (List.range' t (T - t)).map r ∧
      (∀ u, t ≤ u → u + 1 < T → u % 2 = 0 → ¬ XF.ltb (r (u - 1) + r u) (XF.fin 0)) ∧
      (T = t + left ∨ (t < T ∧ (T - 1) % 2 = 0 ∧ XF.ltb (r (T - 2) + r (T - 1)) (XF.fin 0))) := by
  induction left generalizing t acc with
  | zero => exact ⟨t, le_rfl, by omega, by simp [NESS.loop], by omega, by left; rfl⟩
  | succ left ih =>
    simp only [NESS.loop]
    by_cases hc : t % 2 = 0 ∧ XF.ltb (r (t - 1) + r t) (XF.fin 0)
    · rw [if_pos hc]
      refine ⟨t + 1, by omega, by omega, by simp, by omega, Or.inr ⟨by omega, by simpa using hc.1, ?_⟩⟩
      simpa using hc.2
    · rw [if_neg hc]
      obtain ⟨T, h1, h2, h3, h4, h5⟩ := ih (t + 1) (by omega) (acc ++ [r t])
      refine ⟨T, by omega, by omega, ?_, ?_, ?_⟩
      · rw [h3, List.append_assoc, show T - t = (T - (t + 1)) + 1 by omega, List.range'_succ]
        simp
      · intro u hu1 hu2 hu3
        rcases Nat.eq_or_lt_of_le hu1 with rfl | hlt
        · exact fun hh => hc ⟨hu3, hh⟩
        · exact h4 u hlt hu2 hu3
      · rcases h5 with h5 | ⟨h5, h6⟩
        · left; omega
        · right; exact ⟨by omega, h6⟩

/-- **C25**, stopping rule: for `n ≥ 1` samples the autocorrelation sum runs over the lags `1, ..., T-1` for some
`T ≤ n`; it stopped because all lags were used or because the last pair of lags `(T-2, T-1)` has a negative sum, and no
earlier pair has a negative sum. -/
theorem C25_stops (x : List (Fin d → K)) (hx : x ≠ []) :
    ∃ T, 1 ≤ T ∧ T ≤ x.length ∧
      NESS.variogramNESS x = XF.fin (x.length : K) /
        (1 + XF.fin 2 * ((List.range' 1 (T - 1)).map (NESS.rho x)).sum) / XF.fin (x.length : K) ∧
      (∀ u, 1 ≤ u → u + 1 < T → u % 2 = 0 → ¬ XF.ltb (NESS.rho x (u - 1) + NESS.rho x u) (XF.fin 0)) ∧
      (T = x.length ∨ ((T - 1) % 2 = 0 ∧ XF.ltb (NESS.rho x (T - 2) + NESS.rho x (T - 1)) (XF.fin 0))) := by
  have hl : 0 < x.length := List.length_pos_iff.2 hx
  obtain ⟨T, h1, h2, h3, h4, h5⟩ := NESS.loop_stop (NESS.rho x) (x.length - 1) 1 le_rfl []
  refine ⟨T, h1, by omega, ?_, h4, ?_⟩
  · unfold NESS.variogramNESS
    simp only [h3, List.nil_append]
  · rcases h5 with h5 | ⟨-, h6⟩
    · left; omega
    · right; exact h6

/-- Both ways of stopping occur: a periodic chain stops early, a short one uses all lags. -/
example : (NESS.loop (NESS.rho [![0], ![1], ![(2 : ℚ)], ![0], ![1], ![2]]) 5 1 []).length = 2 ∧
    (NESS.loop (NESS.rho [![0], ![(1 : ℚ)]]) 1 1 []).length = 1 := by decide +kernel

/-! ### C77 -/

/-- **C77 refuted** The normalised effective sample size of a chain need not be a number in `(0, 1]`: it is negative for
`0, 1, 2, 3`, infinite for `0, 1, 2`, larger than one for `0, 0, 1, 0, 1` and NaN for a constant chain. -/
theorem C77_refuted : ¬ ∀ x : List (Fin 1 → ℚ), 2 ≤ x.length →
    ∃ r : ℚ, NESS.variogramNESS x = XF.fin r ∧ 0 < r ∧ r ≤ 1 := by
  intro h
  obtain ⟨r, h1, h2, -⟩ := h [![0], ![1], ![2], ![3]] (by decide)
  rw [show NESS.variogramNESS [![0], ![1], ![2], ![(3 : ℚ)]] = XF.fin (-5/7) by decide +kernel] at h1
  cases h1
  norm_num at h2

example : NESS.variogramNESS [![0], ![1], ![(2 : ℚ)]] = XF.pinf ∧
    NESS.variogramNESS [![0], ![0], ![1], ![0], ![(1 : ℚ)]] = XF.fin (18/7) ∧
    NESS.variogramNESS [![0], ![0], ![(0 : ℚ)]] = XF.nan := by decide +kernel

/-- **C77 (part)** If the summed autocorrelations are a nonnegative number `ρ`, the result is `1/(1+2ρ)`, hence a number
in `(0, 1]`. Missing: the code does not ensure the hypothesis, see `C77_refuted`. -/
theorem C77_partial (x : List (Fin d → K)) (hx : x ≠ []) (ρ : K) (hρ : 0 ≤ ρ)
    (h : (NESS.loop (NESS.rho x) (x.length - 1) 1 []).sum = XF.fin ρ) :
    NESS.variogramNESS x = XF.fin (1 / (1 + 2 * ρ)) ∧ 0 < 1 / (1 + 2 * ρ) ∧ 1 / (1 + 2 * ρ) ≤ 1 := by
  have hn : (x.length : K) ≠ 0 := by simp [hx]
  have h1 : 0 < 1 + 2 * ρ := by positivity
  refine ⟨?_, by positivity, ?_⟩
  · unfold NESS.variogramNESS
    simp only [h, XF.one_def, XF.fin_mul, XF.fin_add]
    rw [XF.fin_div_ne _ _ h1.ne', XF.fin_div_ne _ _ hn]
    congr 1
    field_simp
  · rw [div_le_one h1]; linarith

example : (NESS.loop (NESS.rho [![0], ![1], ![0], ![(1 : ℚ)]]) 3 1 []).sum = XF.fin 0 := by decide +kernel

end Verif
