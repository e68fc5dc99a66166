import Verif.Model.Mixture
import Verif.Spec.Basic
import Mathlib.Tactic.FieldSimp
import Mathlib.Tactic.Positivity
import Mathlib.Tactic.Linarith
import Mathlib.Algebra.Order.BigOperators.Group.List
import Mathlib.MeasureTheory.Integral.Bochner.Basic

set_option linter.unusedSectionVars false
set_option autoImplicit false

namespace Verif
section W
variable {K : Type*} [Field K] [LinearOrder K] [IsStrictOrderedRing K]

/-- The value a weight is cleaned to (when it is not `+inf`). -/
def cleanVal : XF K → K
  | .fin x => if 0 < x then x else 0
  | _ => 0

theorem cleanVal_nonneg (w : XF K) : 0 ≤ cleanVal w := by
  cases w <;> simp [cleanVal]
  split_ifs <;> [exact le_of_lt ‹_›; exact le_rfl]

theorem clean_one (w : XF K) (h : w ≠ .pinf) :
    (if badWeight w then (0 : XF K) else w) = .fin (cleanVal w) := by
  cases w with
  | fin x =>
    by_cases hx : 0 < x
    · simp [badWeight, XF.leb, XF.isNan, cleanVal, hx, not_le.mpr hx]
    · simp [badWeight, XF.leb, XF.isNan, cleanVal, hx, not_lt.mp hx]
  | pinf => exact absurd rfl h
  | ninf => simp [badWeight, XF.leb, XF.isNan, cleanVal]
  | nan => simp [badWeight, XF.leb, XF.isNan, cleanVal]

theorem cleanWeights_eq (ws : List (XF K)) (h : .pinf ∉ ws) :
    cleanWeights ws = (ws.map cleanVal).map .fin := by
  unfold cleanWeights maskSet
  rw [List.map_map]
  apply List.map_congr_left
  intro a ha
  exact clean_one a (fun e => h (e ▸ ha))

theorem sum_clean_pos (ws : List (XF K)) (h : ∃ x, 0 < x ∧ XF.fin x ∈ ws) :
    0 < (ws.map cleanVal).sum := by
  obtain ⟨x, hx, hm⟩ := h
  have h1 : x ∈ ws.map cleanVal := by
    refine List.mem_map.mpr ⟨.fin x, hm, ?_⟩
    simp [cleanVal, hx]
  have h2 : x ≤ (ws.map cleanVal).sum := by
    apply List.single_le_sum _ _ h1
    intro y hy
    obtain ⟨w, _, rfl⟩ := List.mem_map.mp hy
    exact cleanVal_nonneg w
  linarith

/-- Closed form of the stored weights. -/
theorem setWeights_eq (ws : List (XF K)) (hpos : ∃ x, 0 < x ∧ XF.fin x ∈ ws) (hinf : .pinf ∉ ws) :
    setWeights ws.length ws
      = .ok ((ws.map fun w => cleanVal w / (ws.map cleanVal).sum).map .fin) := by
  have hs := sum_clean_pos ws hpos
  unfold setWeights normWeights
  rw [if_pos rfl, cleanWeights_eq ws hinf, XF.sum_map_fin]
  have : XF.leb (XF.fin (ws.map cleanVal).sum) 0 = false := by
    simp [XF.leb]; exact hs
  rw [this]
  simp only [Bool.false_eq_true, if_false, List.map_map]
  congr 2
  funext w
  simp [XF.fin_div_ne _ _ hs.ne']

theorem sum_map_div {α : Type*} (l : List α) (f : α → K) (c : K) :
    (l.map fun a => f a / c).sum = (l.map f).sum / c := by
  induction l with
  | nil => simp
  | cons a l ih => simp [ih, add_div]

theorem setWeights_zero (ws : List (XF K)) (h : ∀ w ∈ ws, badWeight w) :
    setWeights ws.length ws = .ok (List.replicate ws.length (.fin 0)) := by
  have hc : cleanWeights ws = List.replicate ws.length (.fin 0) := by
    unfold cleanWeights maskSet
    rw [List.eq_replicate_iff]
    refine ⟨by simp, ?_⟩
    intro b hb
    obtain ⟨a, ha, rfl⟩ := List.mem_map.mp hb
    simp [h a ha]
  have hsum : (List.replicate ws.length (XF.fin (0 : K))).sum = .fin 0 := by
    induction ws.length with
    | zero => rfl
    | succ n ih => simp [List.replicate_succ, ih]
  unfold setWeights normWeights
  rw [if_pos rfl, hc, hsum]
  simp [XF.leb]

/-! ### multinomial -/

theorem multinomialGo_spec (bern : ℕ → K → Bool) (h0 : ∀ j p, p ≤ 0 → bern j p = false)
    (h1 : ∀ j p, 1 ≤ p → bern j p = true) :
    ∀ (ps : List K) (j : ℕ) (left : K), (∀ p ∈ ps, 0 ≤ p) → ps.sum = left → 0 < left →
      ∃ i, ∃ hi : i < ps.length, 0 < ps[i] ∧
        multinomialGo bern j left ps = (List.replicate ps.length 0).set i 1 := by
  intro ps
  induction ps with
  | nil => intro j left _ hs hl; simp at hs; exact absurd hs.symm hl.ne'
  | cons p ps ih =>
    intro j left hn hs hl
    cases ps with
    | nil =>
      refine ⟨0, by simp, ?_, by simp [multinomialGo]⟩
      simp at hs
      simpa [hs] using hl
    | cons q qs =>
      have hp : 0 ≤ p := hn p (by simp)
      have hn' : ∀ r ∈ q :: qs, 0 ≤ r := fun r hr => hn r (List.mem_cons_of_mem _ hr)
      by_cases hb : bern j (p / left) = true
      · refine ⟨0, by simp, ?_, ?_⟩
        · have hpos : 0 < p := by
            rcases lt_or_eq_of_le hp with h | h
            · exact h
            · exfalso
              rw [← h, zero_div, h0 j 0 le_rfl] at hb
              exact Bool.false_ne_true hb
          simpa using hpos
        · simp [multinomialGo, hb, List.replicate_succ]
      · have hlt : p < left := by
          by_contra hge
          have : 1 ≤ p / left := by
            rw [le_div_iff₀ hl]; linarith [not_lt.mp hge]
          exact hb (h1 j _ this)
        obtain ⟨i, hi, hpi, he⟩ := ih (j + 1) (left - p) hn'
          (by rw [List.sum_cons] at hs; linarith) (by linarith)
        refine ⟨i + 1, by simpa using hi, by simpa using hpi, ?_⟩
        simp only [multinomialGo, hb, Bool.false_eq_true, if_false, he]
        simp [List.replicate_succ]

theorem multinomialGo_zero (bern : ℕ → K → Bool) (h0 : ∀ j p, p ≤ 0 → bern j p = false) :
    ∀ (n j : ℕ) (left : K),
      multinomialGo bern j left (List.replicate (n + 1) 0) = (List.replicate (n + 1) 0).set n 1 := by
  intro n
  induction n with
  | zero => intro j left; simp [multinomialGo]
  | succ n ih =>
    intro j left
    have := ih (j + 1) (left - 0)
    rw [List.replicate_succ, List.replicate_succ]
    simp only [multinomialGo, zero_div, h0 j 0 le_rfl, Bool.false_eq_true, if_false]
    rw [← List.replicate_succ, this]
    simp [List.replicate_succ]

theorem foldl_max_replicate_set (n : ℕ) : ∀ i < n, ∀ m ≤ 1,
    ((List.replicate n 0).set i 1).foldl max m = 1 := by
  induction n with
  | zero => intro i hi; omega
  | succ n ih =>
    intro i hi m hm
    cases i with
    | zero =>
      have : ∀ k, ∀ m, (List.replicate k 0).foldl max m = m := by
        intro k
        induction k with
        | zero => intro m; rfl
        | succ k ih => intro m; simp [List.replicate_succ, ih]
      simp [List.replicate_succ, this, hm]
    | succ i =>
      simp only [List.replicate_succ, List.set_cons_succ, List.foldl_cons]
      exact ih i (by omega) _ (by omega)

theorem argmaxNat_oneHot (n i : ℕ) (hi : i < n) : argmaxNat ((List.replicate n 0).set i 1) = i := by
  unfold argmaxNat
  rw [foldl_max_replicate_set n i hi 0 (by omega), List.findIdx_eq (by simpa using hi)]
  constructor
  · simp
  · intro j hj
    simp [hj.ne']

theorem finites_map_fin (l : List K) : finites (l.map .fin) = some l := by
  induction l with
  | nil => rfl
  | cons a l ih => simp [finites, ih]

theorem mapM_except_ok {α β : Type*} (f : α → Except PyErr β) (g : α → β) (l : List α)
    (h : ∀ a ∈ l, f a = .ok (g a)) : l.mapM f = .ok (l.map g) := by
  induction l with
  | nil => rfl
  | cons a l ih =>
    rw [List.mapM_cons, h a (by simp), ih fun b hb => h b (List.mem_cons_of_mem _ hb)]
    rfl

end W
end Verif

namespace Verif
namespace Mixture

theorem shift_fin (amax : XF ℝ) : ∃ s : ℝ, (if amax.isFin then amax else 0) = XF.fin s := by
  cases amax with
  | fin x => exact ⟨x, by simp [XF.isFin]⟩
  | pinf => exact ⟨0, by simp [XF.isFin]⟩
  | ninf => exact ⟨0, by simp [XF.isFin]⟩
  | nan => exact ⟨0, by simp [XF.isFin]⟩

theorem exp_sub_shift (v : XF ℝ) (hv : IsLogDensity v) (s : ℝ) :
    XF.exp (v - .fin s) = .fin (densOf v * Real.exp (-s)) := by
  rcases hv with rfl | ⟨a, rfl⟩
  · show XF.exp (XF.ninf + -XF.fin s) = _
    simp only [XF.neg_fin]
    show XF.exp XF.ninf = _
    simp [XF.exp, densOf]
  · simp [XF.exp, densOf, sub_eq_add_neg, Real.exp_add]

theorem exp_logDensity (v : XF ℝ) (hv : IsLogDensity v) : XF.exp v = .fin (densOf v) := by
  rcases hv with rfl | ⟨a, rfl⟩ <;> simp [XF.exp, densOf]

/-- scipy's shifted `logsumexp` is the logarithm of the weighted sum of exponentials. -/
theorem logsumexp_eq (a : List (XF ℝ)) (w : List ℝ) (ha : ∀ v ∈ a, IsLogDensity v)
    (hw : ∀ x ∈ w, 0 ≤ x) :
    logsumexp a (w.map .fin) = XF.log (.fin (List.zipWith (fun v x => x * densOf v) a w).sum) := by
  unfold logsumexp
  simp only
  generalize (List.foldl _ XF.ninf _) = amax
  obtain ⟨s, hs⟩ := shift_fin amax
  rw [hs]
  have key : (List.zipWith (fun x w => w * XF.exp (x - XF.fin s))
      (List.zipWith (fun x w => if w = 0 then XF.ninf else x) a (w.map XF.fin)) (w.map XF.fin)).sum
      = .fin ((List.zipWith (fun v x => x * densOf v) a w).sum * Real.exp (-s)) := by
    induction a generalizing w with
    | nil => simp
    | cons v a ih =>
      cases w with
      | nil => simp
      | cons x w =>
        have ih' := ih w (fun v hv => ha v (List.mem_cons_of_mem _ hv))
          (fun x hx => hw x (List.mem_cons_of_mem _ hx))
        simp only [List.map_cons, List.zipWith_cons_cons, List.sum_cons, ih']
        have hv : IsLogDensity v := ha v (by simp)
        by_cases hx : x = 0
        · subst hx
          have h2 : XF.exp ((XF.ninf : XF ℝ) - XF.fin s) = .fin 0 := by
            rw [exp_sub_shift _ (Or.inl rfl)]; simp [densOf]
          simp [h2]
        · have : (XF.fin x : XF ℝ) ≠ 0 := by simpa using hx
          rw [if_neg this, exp_sub_shift v hv]
          simp
          ring
  rw [key]
  set S := (List.zipWith (fun v x => x * densOf v) a w).sum with hS
  have hS0 : 0 ≤ S := by
    rw [hS]
    apply List.sum_nonneg
    intro y hy
    rw [List.mem_iff_getElem] at hy
    obtain ⟨i, hi, rfl⟩ := hy
    simp only [List.getElem_zipWith]
    apply mul_nonneg
    · exact hw _ (List.getElem_mem _)
    · have : IsLogDensity (a[i]'(by simp at hi; omega)) := ha _ (List.getElem_mem _)
      rcases this with h | ⟨b, h⟩ <;> rw [h] <;> simp [densOf, Real.exp_nonneg]
  have he : 0 < Real.exp (-s) := Real.exp_pos _
  rcases hS0.lt_or_eq with h | h
  · have h3 : 0 < S * Real.exp (-s) := mul_pos h he
    simp only [XF.log, not_lt.mpr h3.le, not_lt.mpr h.le, h3.ne', h.ne', if_false]
    rw [Real.log_mul h.ne' he.ne', Real.log_exp]
    simp
  · rw [← h]
    simp [XF.log]
    rfl

theorem foldl_zipWith_cols {X : Type*} (data : List X) (fs : List (X → ℝ)) :
    ∀ acc : X → ℝ, (fs.map fun f => data.map fun x => XF.fin (f x)).foldl (List.zipWith (· + ·))
      (data.map fun x => XF.fin (acc x)) = data.map fun x => XF.fin (acc x + (fs.map (· x)).sum) := by
  induction fs with
  | nil => intro acc; simp
  | cons f fs ih =>
    intro acc
    simp only [List.map_cons, List.foldl_cons, List.sum_cons]
    have : List.zipWith (· + ·) (data.map fun x => XF.fin (acc x)) (data.map fun x => XF.fin (f x))
        = data.map fun x => XF.fin (acc x + f x) := by
      rw [List.zipWith_map]
      induction data with
      | nil => rfl
      | cons d ds ihd => simp_all
    rw [this, ih fun x => acc x + f x]
    simp [add_assoc]

theorem prob_eq {X : Type*} (models : List (X → XF ℝ)) (w : List ℝ)
    (hm : ∀ f ∈ models, ∀ x, IsLogDensity (f x)) (data : List X) :
    prob ⟨models, w.map .fin⟩ data = data.map fun x => .fin (mixDensity models w x) := by
  unfold prob sumAxis0 mixDensity
  simp only
  have h1 : List.zipWith (fun f w => data.map fun x => XF.exp (f x) * w) models (w.map .fin)
      = (List.zipWith (fun f wi => fun x => wi * densOf (f x)) models w).map
          fun g => data.map fun x => XF.fin (g x) := by
    induction models generalizing w with
    | nil => simp
    | cons f models ih =>
      cases w with
      | nil => simp
      | cons y w =>
        simp only [List.map_cons, List.zipWith_cons_cons]
        rw [ih w (fun f hf => hm f (List.mem_cons_of_mem _ hf))]
        congr 1
        apply List.map_congr_left
        intro x _
        rw [exp_logDensity _ (hm f (by simp) x)]
        simp [mul_comm]
  have h2 : List.replicate data.length (0 : XF ℝ) = data.map fun _ => XF.fin 0 := by
    rw [List.map_const']; rfl
  rw [h1, h2, foldl_zipWith_cols]
  apply List.map_congr_left
  intro x _
  simp only [zero_add]
  congr 2
  rw [List.map_zipWith]

theorem logProb_eq {X : Type*} (models : List (X → XF ℝ)) (w : List ℝ)
    (hm : ∀ f ∈ models, ∀ x, IsLogDensity (f x)) (hw : ∀ x ∈ w, 0 ≤ x) (data : List X) :
    logProb ⟨models, w.map .fin⟩ data = data.map fun x => XF.log (.fin (mixDensity models w x)) := by
  unfold logProb
  simp only [List.map_map]
  apply List.ext_getElem
  · simp
  · intro j h1 h2
    simp only [List.getElem_map, List.getElem_range]
    have hj : j < data.length := by simpa using h2
    have : (models.map ((fun r => r.getD j XF.nan) ∘ fun f => data.map f))
        = models.map fun f => f data[j] := by
      apply List.map_congr_left
      intro f _
      simp [hj]
    rw [this, logsumexp_eq _ _ _ hw]
    · congr 2
      unfold mixDensity
      rw [List.zipWith_map_left]
    · intro v hv
      obtain ⟨f, hf, rfl⟩ := List.mem_map.mp hv
      exact hm f hf _

end Mixture

/-- A weighted average with a probability vector lies between bounds of the averaged values. -/
theorem mixDensity_bounds {X : Type*} (models : List (X → XF ℝ)) (w : List ℝ) (x : X)
    (hl : models.length = w.length) (hw : ∀ y ∈ w, 0 ≤ y) (lo hi : ℝ)
    (hb : ∀ f ∈ models, lo ≤ densOf (f x) ∧ densOf (f x) ≤ hi) :
    lo * w.sum ≤ mixDensity models w x ∧ mixDensity models w x ≤ hi * w.sum := by
  unfold mixDensity
  induction models generalizing w with
  | nil =>
    cases w with
    | nil => simp
    | cons _ _ => simp at hl
  | cons f models ih =>
    cases w with
    | nil => simp at hl
    | cons y w =>
      have ih' := ih w (by simpa using hl) (fun y hy => hw y (List.mem_cons_of_mem _ hy))
        (fun f hf => hb f (List.mem_cons_of_mem _ hf))
      have hy : 0 ≤ y := hw y (by simp)
      have hf := hb f (by simp)
      simp only [List.zipWith_cons_cons, List.sum_cons, mul_add]
      constructor
      · have := mul_le_mul_of_nonneg_left hf.1 hy
        linarith [ih'.1]
      · have := mul_le_mul_of_nonneg_left hf.2 hy
        linarith [ih'.2]

theorem densOf_nonneg (v : XF ℝ) : 0 ≤ densOf v := by
  cases v <;> simp [densOf, Real.exp_nonneg]

theorem mixDensity_zero {X : Type*} (models : List (X → XF ℝ)) (n : ℕ) (x : X) :
    mixDensity models (List.replicate n 0) x = 0 := by
  unfold mixDensity
  induction models generalizing n with
  | nil => simp
  | cons f models ih =>
    cases n with
    | zero => simp
    | succ n => simp [List.replicate_succ, ih n]

open MeasureTheory in
theorem mixDensity_integral {X : Type*} [MeasurableSpace X] (μ : Measure X)
    (models : List (X → XF ℝ)) (w : List ℝ) (hl : models.length = w.length)
    (hint : ∀ f ∈ models, Integrable (fun x => densOf (f x)) μ)
    (hone : ∀ f ∈ models, ∫ x, densOf (f x) ∂μ = 1) :
    Integrable (mixDensity models w) μ ∧ ∫ x, mixDensity models w x ∂μ = w.sum := by
  unfold mixDensity
  induction models generalizing w with
  | nil =>
    cases w with
    | nil => simp
    | cons _ _ => simp at hl
  | cons f models ih =>
    cases w with
    | nil => simp at hl
    | cons y w =>
      have ih' := ih w (by simpa using hl) (fun f hf => hint f (List.mem_cons_of_mem _ hf))
        (fun f hf => hone f (List.mem_cons_of_mem _ hf))
      have hf := (hint f (by simp)).const_mul y
      simp only [List.zipWith_cons_cons, List.sum_cons]
      refine ⟨hf.add ih'.1, ?_⟩
      rw [integral_add hf ih'.1, ih'.2, integral_const_mul, hone f (by simp), mul_one]

end Verif
