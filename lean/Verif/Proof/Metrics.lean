import Verif.Model.Metrics
import Mathlib.Analysis.SpecialFunctions.Log.Basic
import Mathlib.Tactic.Linarith
import Mathlib.Tactic.FieldSimp
import Mathlib.Tactic.Ring
import Mathlib.Algebra.Order.BigOperators.Group.List
import Mathlib.Algebra.BigOperators.Ring.List

/-!
# Helper lemmas for the metrics
-/

set_option linter.unusedSectionVars false
set_option autoImplicit false

namespace Verif

theorem maskSelect_map {α β : Type*} (f : α → Bool) (g : α → β) (l : List α) :
    maskSelect (l.map f) (l.map g) = (l.filter f).map g := by
  induction l with
  | nil => rfl
  | cons a l ih => cases h : f a <;> simp [maskSelect, h, ih]

/-- Sum of a list of positive reals. -/
theorem sum_pos_of_ne {l : List ℝ} (h : ∀ x ∈ l, 0 < x) (hl : l ≠ []) : 0 < l.sum := List.sum_pos l h hl

/-! ### Gibbs inequality on lists -/

theorem gibbs_term {p q : ℝ} (hp : 0 < p) (hq : 0 < q) : p - q ≤ p * (Real.log p - Real.log q) := by
  have h := Real.log_le_sub_one_of_pos (div_pos hq hp)
  rw [Real.log_div hq.ne' hp.ne'] at h
  have : p * (Real.log q - Real.log p) ≤ p * (q / p - 1) := mul_le_mul_of_nonneg_left h hp.le
  have e : p * (q / p - 1) = q - p := by field_simp
  rw [e] at this
  linarith

theorem gibbs_term_eq {p q : ℝ} (hp : 0 < p) (hq : 0 < q) (h : p * (Real.log p - Real.log q) = p - q) : p = q := by
  by_contra hne
  have h1 := Real.log_lt_sub_one_of_pos (div_pos hq hp) (by
    intro h1; rw [div_eq_one_iff_eq hp.ne'] at h1; exact hne h1.symm)
  rw [Real.log_div hq.ne' hp.ne'] at h1
  have : p * (Real.log q - Real.log p) < p * (q / p - 1) := mul_lt_mul_of_pos_left h1 hp
  have e : p * (q / p - 1) = q - p := by field_simp
  rw [e] at this
  linarith

theorem sum_map_sub' {α : Type*} (l : List α) (f g : α → ℝ) :
    (l.map fun x => f x - g x).sum = (l.map f).sum - (l.map g).sum := by
  induction l with
  | nil => simp
  | cons a l ih => simp [ih]; ring

theorem sum_le_sum' {α : Type*} (l : List α) (f g : α → ℝ) (h : ∀ x ∈ l, f x ≤ g x) :
    (l.map f).sum ≤ (l.map g).sum := by
  induction l with
  | nil => simp
  | cons a l ih =>
    simp only [List.map_cons, List.sum_cons]
    have := h a (by simp)
    have := ih fun x hx => h x (by simp [hx])
    linarith

/-- Equality in a sum of termwise inequalities forces equality in every term. -/
theorem eq_of_sum_eq' {α : Type*} (l : List α) (f g : α → ℝ) (h : ∀ x ∈ l, f x ≤ g x)
    (he : (l.map f).sum = (l.map g).sum) : ∀ x ∈ l, f x = g x := by
  induction l with
  | nil => simp
  | cons a l ih =>
    simp only [List.map_cons, List.sum_cons] at he
    have h1 := h a (by simp)
    have h2 := sum_le_sum' l f g fun x hx => h x (by simp [hx])
    intro x hx
    rcases List.mem_cons.1 hx with rfl | hx
    · linarith
    · exact ih (fun x hx => h x (by simp [hx])) (by linarith) x hx

theorem gibbs {α : Type*} (l : List α) (p q : α → ℝ) (hp : ∀ x ∈ l, 0 < p x) (hq : ∀ x ∈ l, 0 < q x)
    (hs : (l.map p).sum = (l.map q).sum) : 0 ≤ (l.map fun x => p x * (Real.log (p x) - Real.log (q x))).sum := by
  have := sum_le_sum' l (fun x => p x - q x) _ fun x hx => gibbs_term (hp x hx) (hq x hx)
  rw [sum_map_sub', hs, sub_self] at this
  exact this

theorem gibbs_eq {α : Type*} (l : List α) (p q : α → ℝ) (hp : ∀ x ∈ l, 0 < p x) (hq : ∀ x ∈ l, 0 < q x)
    (hs : (l.map p).sum = (l.map q).sum) (h0 : (l.map fun x => p x * (Real.log (p x) - Real.log (q x))).sum = 0) :
    ∀ x ∈ l, p x = q x := by
  have := eq_of_sum_eq' l (fun x => p x - q x) _ (fun x hx => gibbs_term (hp x hx) (hq x hx)) (by
    rw [sum_map_sub', hs, sub_self, h0])
  intro x hx
  exact gibbs_term_eq (hp x hx) (hq x hx) (this x hx).symm

/-! ### logaddexp -/

theorem logaddexp_foldl_fin (l : List ℝ) (a : ℝ) :
    (l.map XF.fin).foldl logaddexp (.fin a) = .fin (Real.log (Real.exp a + (l.map Real.exp).sum)) := by
  induction l generalizing a with
  | nil => simp
  | cons b l ih =>
    simp only [List.map_cons, List.foldl_cons, List.sum_cons]
    rw [show logaddexp (.fin a) (.fin b) = .fin (Real.log (Real.exp a + Real.exp b)) from rfl, ih,
      Real.exp_log (by positivity), add_assoc]

theorem logaddexpReduce_fin {l : List ℝ} (h : l ≠ []) :
    logaddexpReduce (l.map XF.fin) = .fin (Real.log (l.map Real.exp).sum) := by
  cases l with
  | nil => exact absurd rfl h
  | cons a l =>
    simp only [logaddexpReduce, List.map_cons, List.foldl_cons, List.sum_cons]
    rw [show logaddexp .ninf (.fin a) = .fin a from rfl, logaddexp_foldl_fin]

theorem logaddexp_foldl_pinf (l : List (XF ℝ)) (hn : ∀ x ∈ l, x ≠ .nan) (a : XF ℝ) (ha : a ≠ .nan)
    (h : a = .pinf ∨ .pinf ∈ l) : l.foldl logaddexp a = .pinf := by
  induction l generalizing a with
  | nil => simpa using h
  | cons b l ih =>
    rw [List.foldl_cons]
    have hb : b ≠ .nan := hn b (by simp)
    apply ih (fun x hx => hn x (by simp [hx]))
    · cases a <;> cases b <;> simp_all [logaddexp]
    · rcases h with rfl | h
      · left
        cases b <;> simp_all [logaddexp]
      · rcases List.mem_cons.1 h with rfl | h
        · left
          cases a <;> simp_all [logaddexp]
        · right; exact h

theorem logaddexpReduce_pinf {l : List (XF ℝ)} (hn : ∀ x ∈ l, x ≠ .nan) (h : XF.pinf ∈ l) :
    logaddexpReduce l = .pinf := logaddexp_foldl_pinf l hn .ninf (by simp) (Or.inr h)

/-! ### sums of extended numbers -/

theorem sum_bad {l : List (XF ℝ)} (h : ∀ x ∈ l, x = .nan ∨ x = .pinf) (hl : l ≠ []) : l.sum = .nan ∨ l.sum = .pinf := by
  induction l with
  | nil => exact absurd rfl hl
  | cons a l ih =>
    rw [List.sum_cons]
    by_cases hl' : l = []
    · subst hl'
      rw [List.sum_nil, add_zero]
      exact h a (by simp)
    · have h1 := ih (fun x hx => h x (by simp [hx])) hl'
      rcases h a (by simp) with ha | ha <;> rcases h1 with h1 | h1 <;> rw [ha, h1]
      · left; rfl
      · left; rfl
      · left; rfl
      · right; rfl

theorem sum_nan_mem {l : List (XF ℝ)} (h : XF.nan ∈ l) : l.sum = .nan := by
  induction l with
  | nil => cases h
  | cons a l ih =>
    rw [List.sum_cons]
    rcases List.mem_cons.1 h with rfl | h
    · simp
    · rw [ih h]; simp

theorem sum_pinf {l : List (XF ℝ)} (hn : ∀ x ∈ l, x ≠ .nan ∧ x ≠ .ninf) (h : XF.pinf ∈ l) : l.sum = .pinf := by
  induction l with
  | nil => cases h
  | cons a l ih =>
    rw [List.sum_cons]
    have hrest : ∀ l : List (XF ℝ), (∀ x ∈ l, x ≠ .nan ∧ x ≠ .ninf) → l.sum ≠ .nan ∧ l.sum ≠ .ninf := by
      intro l hl
      induction l with
      | nil => simp
      | cons b l ihb =>
        rw [List.sum_cons]
        have h1 := ihb fun x hx => hl x (by simp [hx])
        have h2 := hl b (by simp)
        revert h1 h2
        generalize l.sum = s
        cases b <;> cases s <;> simp [HAdd.hAdd, Add.add, XF.add]
    rcases List.mem_cons.1 h with h | h
    · subst h
      have := hrest l fun x hx => hn x (by simp [hx])
      revert this
      generalize l.sum = s
      cases s <;> simp [HAdd.hAdd, Add.add, XF.add]
    · rw [ih (fun x hx => hn x (by simp [hx])) h]
      have := hn a (by simp)
      revert this
      cases a <;> simp [HAdd.hAdd, Add.add, XF.add]

/-! ### KL from log probabilities -/

namespace KL

/-- The terms returned by `compute_from_log_probs`. -/
theorem computeFromLogProbs_eq (l : Pairs ℝ) (hl : l ≠ []) :
    computeFromLogProbs l = .ok (((l.filter logInlier).map fun x =>
      logTerm (x.1 - logaddexpReduce ((l.filter logInlier).map Prod.fst),
        x.2 - logaddexpReduce ((l.filter logInlier).map Prod.snd))), normLogs l) := by
  unfold computeFromLogProbs
  rw [if_neg (by simpa using hl)]
  simp only [normLogs, maskSelect_map]
  congr 2
  rw [List.map_map]
  refine List.map_congr_left fun x hx => ?_
  simp [(List.mem_filter.1 hx).2]

theorem logInlier_iff (x : XF ℝ × XF ℝ) : logInlier x = true ↔
    (x.1 ≠ .nan ∧ x.1 ≠ .ninf) ∧ (x.2 ≠ .nan ∧ x.2 ≠ .ninf) := by
  obtain ⟨a, b⟩ := x
  cases a <;> cases b <;> simp [logInlier, XF.ltb]

theorem eq_map_fin {l : List (XF ℝ)} (h : ∀ x ∈ l, x ≠ .nan ∧ x ≠ .ninf) (h' : XF.pinf ∉ l) :
    ∃ r : List ℝ, l = r.map XF.fin := by
  induction l with
  | nil => exact ⟨[], rfl⟩
  | cons a l ih =>
    obtain ⟨r, hr⟩ := ih (fun x hx => h x (by simp [hx])) (fun hx => h' (by simp [hx]))
    have h1 := h a (by simp)
    have h2 : a ≠ .pinf := fun h2 => h' (by simp [h2])
    cases a with
    | fin a => exact ⟨a :: r, by simp [hr]⟩
    | pinf => simp at h2
    | ninf => simp at h1
    | nan => simp at h1

/-- A list of pairs of finite numbers. -/
theorem eq_map_fin₂ {l : Pairs ℝ} (h : ∀ x ∈ l, (x.1 ≠ .nan ∧ x.1 ≠ .ninf) ∧ (x.2 ≠ .nan ∧ x.2 ≠ .ninf))
    (h' : ∀ x ∈ l, x.1 ≠ .pinf ∧ x.2 ≠ .pinf) :
    ∃ r : List (ℝ × ℝ), l = r.map fun x => (XF.fin x.1, XF.fin x.2) := by
  induction l with
  | nil => exact ⟨[], rfl⟩
  | cons a l ih =>
    obtain ⟨r, hr⟩ := ih (fun x hx => h x (by simp [hx])) (fun x hx => h' x (by simp [hx]))
    have h1 := h a (by simp)
    have h2 := h' a (by simp)
    obtain ⟨a, b⟩ := a
    cases a <;> cases b <;> simp_all
    next a b => exact ⟨(a, b) :: r, by simp⟩

/-- Sum of the terms for finite log probabilities. -/
theorem logTerms_fin (r : List (ℝ × ℝ)) (hr : r ≠ []) :
    ((r.map fun x => (XF.fin x.1, XF.fin x.2)).map fun x =>
      logTerm (x.1 - logaddexpReduce ((r.map fun x => (XF.fin x.1, XF.fin x.2)).map Prod.fst),
        x.2 - logaddexpReduce ((r.map fun x => (XF.fin x.1, XF.fin x.2)).map Prod.snd))) =
    (r.map fun x => Real.exp x.1 / (r.map fun x => Real.exp x.1).sum *
      (Real.log (Real.exp x.1 / (r.map fun x => Real.exp x.1).sum) -
        Real.log (Real.exp x.2 / (r.map fun x => Real.exp x.2).sum))).map XF.fin := by
  have e1 : ((r.map fun x => (XF.fin x.1, XF.fin x.2)).map Prod.fst) = (r.map Prod.fst).map XF.fin := by
    simp [List.map_map, Function.comp_def]
  have e2 : ((r.map fun x => (XF.fin x.1, XF.fin x.2)).map Prod.snd) = (r.map Prod.snd).map XF.fin := by
    simp [List.map_map, Function.comp_def]
  rw [e1, e2, logaddexpReduce_fin (by simpa using hr), logaddexpReduce_fin (by simpa using hr)]
  simp only [List.map_map, Function.comp_def]
  have hp1 : 0 < (r.map fun x => Real.exp x.1).sum :=
    sum_pos_of_ne (by simp only [List.mem_map]; rintro _ ⟨x, _, rfl⟩; exact Real.exp_pos _) (by simpa using hr)
  have hp2 : 0 < (r.map fun x => Real.exp x.2).sum :=
    sum_pos_of_ne (by simp only [List.mem_map]; rintro _ ⟨x, _, rfl⟩; exact Real.exp_pos _) (by simpa using hr)
  refine List.map_congr_left fun x _ => ?_
  simp only [XF.fin_sub, logTerm, XF.isNan, XF.exp, XF.fin_mul, Bool.false_eq_true, if_false]
  rw [Real.exp_sub, Real.exp_log hp1, Real.log_div (Real.exp_pos _).ne' hp1.ne',
    Real.log_div (Real.exp_pos _).ne' hp2.ne', Real.log_exp, Real.log_exp]

/-- Normalised lists sum to one. -/
theorem sum_div_self {α : Type*} (l : List α) (f : α → ℝ) (h : (l.map f).sum ≠ 0) :
    (l.map fun x => f x / (l.map f).sum).sum = 1 := by
  simp only [div_eq_mul_inv]
  rw [List.sum_map_mul_right, mul_inv_cancel₀ h]

theorem inl_ne {l : List (XF ℝ × XF ℝ)} : ∀ x ∈ l.filter logInlier,
    (x.1 ≠ .nan ∧ x.1 ≠ .ninf) ∧ (x.2 ≠ .nan ∧ x.2 ≠ .ninf) := fun x hx =>
  (logInlier_iff x).1 (List.mem_filter.1 hx).2

theorem sub_pinf {a : XF ℝ} (h : a ≠ .nan ∧ a ≠ .ninf) : a - .pinf = .nan ∨ a - .pinf = .ninf := by
  cases a with
  | fin a => right; rfl
  | pinf => left; rfl
  | ninf => simp at h
  | nan => simp at h

theorem logTerm_nan (y : XF ℝ) : logTerm (.nan, y) = .nan ∨ logTerm (.nan, y) = .pinf := by
  unfold logTerm
  split_ifs
  · right; rfl
  · left; simp [XF.exp]

theorem logTerm_ninf {y : XF ℝ} (hy : y ≠ .pinf) : logTerm (.ninf, y) = .nan ∨ logTerm (.ninf, y) = .pinf := by
  cases y with
  | fin b =>
    left
    show XF.fin 0 * (XF.ninf - XF.fin b) = .nan
    rw [show (XF.ninf - XF.fin b : XF ℝ) = .ninf from rfl]
    show XF.neg (XF.infMul 0) = .nan
    simp [XF.infMul, XF.neg]
  | pinf => exact absurd rfl hy
  | ninf =>
    left
    show (XF.fin 0 : XF ℝ) * (XF.ninf - XF.ninf) = .nan
    rw [show (XF.ninf - XF.ninf : XF ℝ) = .nan from rfl]
    simp
  | nan => right; rfl

/-- With an infinite inlier every term is NaN or +inf. -/
theorem logTerms_bad (inl : Pairs ℝ) (h : ∀ x ∈ inl, (x.1 ≠ .nan ∧ x.1 ≠ .ninf) ∧ (x.2 ≠ .nan ∧ x.2 ≠ .ninf))
    (hb : ∃ x ∈ inl, x.1 = .pinf ∨ x.2 = .pinf) :
    ∀ t ∈ inl.map (fun x => logTerm (x.1 - logaddexpReduce (inl.map Prod.fst), x.2 - logaddexpReduce (inl.map Prod.snd))),
      t = .nan ∨ t = .pinf := by
  have hne : inl ≠ [] := by rintro rfl; simp at hb
  have n1 : ∀ y ∈ inl.map Prod.fst, y ≠ XF.nan ∧ y ≠ XF.ninf := by
    simp only [List.mem_map]; rintro _ ⟨x, hx, rfl⟩; exact (h x hx).1
  have n2 : ∀ y ∈ inl.map Prod.snd, y ≠ XF.nan ∧ y ≠ XF.ninf := by
    simp only [List.mem_map]; rintro _ ⟨x, hx, rfl⟩; exact (h x hx).2
  intro t ht
  obtain ⟨x, hx, rfl⟩ := List.mem_map.1 ht
  have hx' := h x hx
  have key : ∀ (m : List (XF ℝ)), m ≠ [] → (∀ y ∈ m, y ≠ XF.nan ∧ y ≠ XF.ninf) → ∀ a ∈ m,
      (XF.pinf ∈ m ∧ logaddexpReduce m = .pinf) ∨
      (XF.pinf ∉ m ∧ ∃ z, logaddexpReduce m = .fin z ∧ ∃ b, a = .fin b) := by
    intro m hm hn a ha
    by_cases hp : XF.pinf ∈ m
    · exact Or.inl ⟨hp, logaddexpReduce_pinf (fun y hy => (hn y hy).1) hp⟩
    · obtain ⟨r, rfl⟩ := eq_map_fin hn hp
      refine Or.inr ⟨hp, _, logaddexpReduce_fin (by simpa using hm), ?_⟩
      obtain ⟨b, _, rfl⟩ := List.mem_map.1 ha
      exact ⟨b, rfl⟩
  have k1 := key (inl.map Prod.fst) (by simpa using hne) n1 x.1 (List.mem_map_of_mem hx)
  have k2 := key (inl.map Prod.snd) (by simpa using hne) n2 x.2 (List.mem_map_of_mem hx)
  obtain ⟨a, b⟩ := x
  simp only at k1 k2 hx'
  rcases k1 with ⟨_, k1⟩ | ⟨kp, z, k1, a', rfl⟩
  · rw [k1]
    have hy : b - logaddexpReduce (inl.map Prod.snd) ≠ .pinf := by
      rcases k2 with ⟨_, k2⟩ | ⟨kp, z, k2, b', rfl⟩
      · rw [k2]
        rcases sub_pinf hx'.2 with h1 | h1 <;> rw [h1] <;> simp
      · rw [k2, XF.fin_sub]; simp
    rcases sub_pinf hx'.1 with h1 | h1 <;> rw [h1]
    · exact logTerm_nan _
    · exact logTerm_ninf hy
  · rcases k2 with ⟨_, k2⟩ | ⟨kp2, z2, k2, b', rfl⟩
    · rw [k1, k2]
      have : 0 < Real.exp (a' - z) := Real.exp_pos _
      cases b with
      | fin b =>
        right
        show logTerm (XF.fin a' - XF.fin z, XF.fin b - XF.pinf) = .pinf
        rw [XF.fin_sub, show (XF.fin b - XF.pinf : XF ℝ) = .ninf from rfl]
        show XF.fin (Real.exp (a' - z)) * (XF.fin (a' - z) - XF.ninf) = .pinf
        rw [show (XF.fin (a' - z) - XF.ninf : XF ℝ) = .pinf from rfl]
        show XF.infMul _ = _
        simp [XF.infMul, this]
      | pinf =>
        right
        rfl
      | ninf => simp at hx'
      | nan => simp at hx'
    · exfalso
      obtain ⟨y, hy, h1⟩ := hb
      rcases h1 with h1 | h1
      · exact kp (h1 ▸ List.mem_map_of_mem hy)
      · exact kp2 (h1 ▸ List.mem_map_of_mem hy)

/-! ### The real valued divergences -/

/-- Discrete KL divergence of two lists of positive numbers after normalisation. -/
noncomputable def real (r : List (ℝ × ℝ)) : ℝ :=
  (r.map fun x => x.1 / (r.map Prod.fst).sum *
    (Real.log (x.1 / (r.map Prod.fst).sum) - Real.log (x.2 / (r.map Prod.snd).sum))).sum

/-- All entries positive. -/
def Pos (r : List (ℝ × ℝ)) : Prop := ∀ x ∈ r, 0 < x.1 ∧ 0 < x.2

theorem Pos.sum_fst {r : List (ℝ × ℝ)} (h : Pos r) (hr : r ≠ []) : 0 < (r.map Prod.fst).sum :=
  sum_pos_of_ne (by simp only [List.mem_map]; rintro _ ⟨x, hx, rfl⟩; exact (h x hx).1) (by simpa using hr)

theorem Pos.sum_snd {r : List (ℝ × ℝ)} (h : Pos r) (hr : r ≠ []) : 0 < (r.map Prod.snd).sum :=
  sum_pos_of_ne (by simp only [List.mem_map]; rintro _ ⟨x, hx, rfl⟩; exact (h x hx).2) (by simpa using hr)

theorem real_nonneg {r : List (ℝ × ℝ)} (h : Pos r) : 0 ≤ real r := by
  by_cases hr : r = []
  · subst hr; simp [real]
  · have h1 := h.sum_fst hr
    have h2 := h.sum_snd hr
    apply gibbs r (fun x => x.1 / (r.map Prod.fst).sum) (fun x => x.2 / (r.map Prod.snd).sum)
    · intro x hx; exact div_pos (h x hx).1 h1
    · intro x hx; exact div_pos (h x hx).2 h2
    · rw [sum_div_self r Prod.fst h1.ne', sum_div_self r Prod.snd h2.ne']

theorem real_eq_zero {r : List (ℝ × ℝ)} (h : Pos r) : real r = 0 ↔ ∃ c, 0 < c ∧ ∀ x ∈ r, x.2 = c * x.1 := by
  by_cases hr : r = []
  · subst hr; simp [real]; exact ⟨1, one_pos⟩
  · have h1 := h.sum_fst hr
    have h2 := h.sum_snd hr
    constructor
    · intro h0
      have := gibbs_eq r (fun x => x.1 / (r.map Prod.fst).sum) (fun x => x.2 / (r.map Prod.snd).sum)
        (fun x hx => div_pos (h x hx).1 h1) (fun x hx => div_pos (h x hx).2 h2)
        (by rw [sum_div_self r Prod.fst h1.ne', sum_div_self r Prod.snd h2.ne']) h0
      refine ⟨(r.map Prod.snd).sum / (r.map Prod.fst).sum, div_pos h2 h1, fun x hx => ?_⟩
      have := this x hx
      field_simp at this ⊢
      linarith
    · rintro ⟨c, hc, hx⟩
      have hs : (r.map Prod.snd).sum = c * (r.map Prod.fst).sum := by
        rw [← List.sum_map_mul_left]
        congr 1
        exact List.map_congr_left hx
      unfold real
      rw [hs]
      have : ∀ x ∈ r, x.1 / (r.map Prod.fst).sum * (Real.log (x.1 / (r.map Prod.fst).sum) -
          Real.log (x.2 / (c * (r.map Prod.fst).sum))) = 0 := by
        intro x hx'
        rw [hx x hx', mul_div_mul_left _ _ hc.ne', sub_self, mul_zero]
      rw [List.map_congr_left this]
      simp

theorem real_scale (r : List (ℝ × ℝ)) {a b : ℝ} (ha : 0 < a) (hb : 0 < b) :
    real (r.map fun x => (a * x.1, b * x.2)) = real r := by
  unfold real
  simp only [List.map_map, Function.comp_def, List.sum_map_mul_left]
  congr 1
  refine List.map_congr_left fun x _ => ?_
  rw [mul_div_mul_left _ _ ha.ne', mul_div_mul_left _ _ hb.ne']

/-- The log probability version on finite log probabilities. -/
theorem logTerms_sum (r : List (ℝ × ℝ)) :
    ((r.map fun x => (XF.fin x.1, XF.fin x.2)).map fun x =>
      logTerm (x.1 - logaddexpReduce ((r.map fun x => (XF.fin x.1, XF.fin x.2)).map Prod.fst),
        x.2 - logaddexpReduce ((r.map fun x => (XF.fin x.1, XF.fin x.2)).map Prod.snd))).sum =
    XF.fin (real (r.map fun x => (Real.exp x.1, Real.exp x.2))) := by
  by_cases hr : r = []
  · subst hr; simp [real]
  · rw [logTerms_fin r hr, XF.sum_map_fin]
    congr 1
    simp only [real, List.map_map, Function.comp_def]

theorem pos_exp (r : List (ℝ × ℝ)) : Pos (r.map fun x => (Real.exp x.1, Real.exp x.2)) := by
  intro x hx
  obtain ⟨y, _, rfl⟩ := List.mem_map.1 hx
  exact ⟨Real.exp_pos _, Real.exp_pos _⟩

/-! ### KL from probabilities -/

theorem inlier_iff (x : XF ℝ × XF ℝ) : inlier x = true ↔
    ((∃ a, 0 < a ∧ x.1 = .fin a) ∨ x.1 = .pinf) ∧ ((∃ a, 0 < a ∧ x.2 = .fin a) ∨ x.2 = .pinf) := by
  obtain ⟨a, b⟩ := x
  cases a <;> cases b <;> simp [inlier, XF.ltb]

theorem zipWith_map_self {α β γ δ : Type*} (h : β → γ → δ) (f : α → β) (g : α → γ) (l : List α) :
    List.zipWith h (l.map f) (l.map g) = l.map fun x => h (f x) (g x) := by
  induction l with
  | nil => rfl
  | cons a l ih => simp [ih]

theorem computeFromProbs_eq (l : Pairs ℝ) (hl : l ≠ [])
    (hp : XF.ltb (.fin 0) ((l.filter inlier).map Prod.fst).sum = true)
    (hq : XF.ltb (.fin 0) ((l.filter inlier).map Prod.snd).sum = true) :
    computeFromProbs l = .ok (.arr ((l.filter inlier).map fun x =>
        probTerm (x.1 / ((l.filter inlier).map Prod.fst).sum, x.2 / ((l.filter inlier).map Prod.snd).sum)),
      l.map fun x => if inlier x then
        (x.1 / ((l.filter inlier).map Prod.fst).sum, x.2 / ((l.filter inlier).map Prod.snd).sum) else x) := by
  unfold computeFromProbs
  rw [if_neg (by simpa using hl)]
  simp only [hp, hq, if_true, zipWith_map_self, maskSelect_map]
  congr 2
  · congr 1
    rw [List.map_map]
    refine List.map_congr_left fun x hx => ?_
    simp [(List.mem_filter.1 hx).2]
  · refine List.map_congr_left fun x hx => ?_
    by_cases h : inlier x = true <;> simp [h]

theorem computeFromProbs_none (l : Pairs ℝ) (hl : l ≠ []) (h : l.filter inlier = []) :
    computeFromProbs l = .ok (.inf, l) := by
  unfold computeFromProbs
  rw [if_neg (by simpa using hl)]
  simp [h, XF.ltb]

/-- A list of pairs of finite positive numbers. -/
theorem eq_map_pos {l : Pairs ℝ} (h : ∀ x ∈ l, ((∃ a, 0 < a ∧ x.1 = .fin a) ∨ x.1 = .pinf) ∧
      ((∃ a, 0 < a ∧ x.2 = .fin a) ∨ x.2 = .pinf))
    (h' : ∀ x ∈ l, x.1 ≠ .pinf ∧ x.2 ≠ .pinf) :
    ∃ r : List (ℝ × ℝ), Pos r ∧ l = r.map fun x => (XF.fin x.1, XF.fin x.2) := by
  induction l with
  | nil => exact ⟨[], by simp [Pos], rfl⟩
  | cons x l ih =>
    obtain ⟨r, hp, hr⟩ := ih (fun x hx => h x (by simp [hx])) (fun x hx => h' x (by simp [hx]))
    have h1 := h x (by simp)
    have h2 := h' x (by simp)
    obtain ⟨a, b⟩ := x
    simp only [h2.1, h2.2, or_false] at h1
    obtain ⟨⟨a, ha, rfl⟩, b, hb, rfl⟩ := h1
    refine ⟨(a, b) :: r, ?_, by simp [hr]⟩
    intro x hx
    rcases List.mem_cons.1 hx with rfl | hx
    · exact ⟨ha, hb⟩
    · exact hp x hx

theorem fst_finPair (r : List (ℝ × ℝ)) :
    ((r.map fun x => (XF.fin x.1, XF.fin x.2)).map Prod.fst).sum = XF.fin (r.map Prod.fst).sum := by
  rw [← XF.sum_map_fin]
  simp [List.map_map, Function.comp_def]

theorem snd_finPair (r : List (ℝ × ℝ)) :
    ((r.map fun x => (XF.fin x.1, XF.fin x.2)).map Prod.snd).sum = XF.fin (r.map Prod.snd).sum := by
  rw [← XF.sum_map_fin]
  simp [List.map_map, Function.comp_def]

/-- Terms for finite positive probabilities. -/
theorem probTerms_sum {r : List (ℝ × ℝ)} (h : Pos r) (hr : r ≠ []) :
    ((r.map fun x => (XF.fin x.1, XF.fin x.2)).map fun x =>
      probTerm (x.1 / ((r.map fun x => (XF.fin x.1, XF.fin x.2)).map Prod.fst).sum,
        x.2 / ((r.map fun x => (XF.fin x.1, XF.fin x.2)).map Prod.snd).sum)).sum = XF.fin (real r) := by
  have h1 := h.sum_fst hr
  have h2 := h.sum_snd hr
  rw [fst_finPair, snd_finPair, real]
  refine Eq.trans ?_ (XF.sum_map_fin _)
  rw [List.map_map, List.map_map]
  congr 1
  refine List.map_congr_left fun x hx => ?_
  simp only [Function.comp_apply]
  have hp := div_pos (h x hx).1 h1
  have hq := div_pos (h x hx).2 h2
  simp only [XF.fin_div_ne _ _ h1.ne', XF.fin_div_ne _ _ h2.ne', probTerm, XF.leb, XF.fin_div_ne _ _ hq.ne', XF.log]
  rw [if_neg (by simpa using hq), if_neg (not_lt.2 (div_pos hp hq).le), if_neg (div_pos hp hq).ne', XF.fin_mul,
    Real.log_div hp.ne' hq.ne']

/-- With an infinite inlier the sum of the terms is NaN. -/
theorem probTerms_bad (inl : Pairs ℝ) (h : ∀ x ∈ inl, inlier x = true)
    (hb : ∃ x ∈ inl, x.1 = .pinf ∨ x.2 = .pinf) :
    (inl.map fun x => probTerm (x.1 / (inl.map Prod.fst).sum, x.2 / (inl.map Prod.snd).sum)).sum = .nan := by
  have h' := fun x hx => (inlier_iff x).1 (h x hx)
  have n1 : ∀ y ∈ inl.map Prod.fst, y ≠ XF.nan ∧ y ≠ XF.ninf := by
    simp only [List.mem_map]; rintro _ ⟨x, hx, rfl⟩
    rcases (h' x hx).1 with ⟨a, _, e⟩ | e <;> rw [e] <;> simp
  have n2 : ∀ y ∈ inl.map Prod.snd, y ≠ XF.nan ∧ y ≠ XF.ninf := by
    simp only [List.mem_map]; rintro _ ⟨x, hx, rfl⟩
    rcases (h' x hx).2 with ⟨a, _, e⟩ | e <;> rw [e] <;> simp
  apply sum_nan_mem
  by_cases hq : ∃ x ∈ inl, x.2 = .pinf
  · obtain ⟨x, hx, e⟩ := hq
    refine List.mem_map.2 ⟨x, hx, ?_⟩
    rw [sum_pinf n2 (e ▸ List.mem_map_of_mem hx), e, show (XF.pinf / XF.pinf : XF ℝ) = .nan from rfl]
    simp [probTerm, XF.leb, XF.log]
  · push Not at hq
    obtain ⟨x, hx, e | e⟩ := hb
    · refine List.mem_map.2 ⟨x, hx, ?_⟩
      have hs : ∃ s, 0 < s ∧ (inl.map Prod.snd).sum = .fin s := by
        obtain ⟨r, hr⟩ := eq_map_fin n2 (by
          intro hm; obtain ⟨y, hy, e⟩ := List.mem_map.1 hm; exact hq y hy e)
        refine ⟨r.sum, ?_, by rw [hr, XF.sum_map_fin]⟩
        apply sum_pos_of_ne
        · intro b hb
          have : XF.fin b ∈ inl.map Prod.snd := by rw [hr]; exact List.mem_map_of_mem hb
          obtain ⟨y, hy, e⟩ := List.mem_map.1 this
          rcases (h' y hy).2 with ⟨a, ha, e'⟩ | e'
          · rw [e'] at e; simp at e; rw [← e]; exact ha
          · exact absurd e' (hq y hy)
        · rintro rfl
          simp at hr
          subst hr
          cases hx
      obtain ⟨s, hs, es⟩ := hs
      rcases (h' x hx).2 with ⟨b, hb, e2⟩ | e2
      · rw [sum_pinf n1 (e ▸ List.mem_map_of_mem hx), e, e2, es, show (XF.pinf / XF.pinf : XF ℝ) = .nan from rfl,
          XF.fin_div_ne _ _ hs.ne']
        have := div_pos hb hs
        simp [probTerm, XF.leb, XF.log, not_le.2 this]
      · exact absurd e2 (hq x hx)
    · exact absurd e (hq x hx)

end KL

/-! ### Jensen-Shannon -/

namespace JSD

/-- Un-normalised (natural logarithm) Jensen-Shannon divergence of two lists of positive numbers. -/
noncomputable def real (r : List (ℝ × ℝ)) : ℝ :=
  let P := fun x : ℝ × ℝ => x.1 / (r.map Prod.fst).sum
  let Q := fun x : ℝ × ℝ => x.2 / (r.map Prod.snd).sum
  (r.map fun x => 1/2 * P x * Real.log (P x / (1/2 * (P x + Q x))) + 1/2 * Q x * Real.log (Q x / (1/2 * (P x + Q x)))).sum

theorem compute_eq (l : Pairs ℝ) (hl : l ≠ []) :
    compute l = .ok ((((l.filter inlier).map fun x =>
      term (x.1 / ((l.filter inlier).map Prod.fst).sum) (x.2 / ((l.filter inlier).map Prod.snd).sum)
        (XF.fin (1/2) * (x.1 / ((l.filter inlier).map Prod.fst).sum + x.2 / ((l.filter inlier).map Prod.snd).sum) /
          ((l.filter inlier).map fun x => XF.fin (1/2) *
            (x.1 / ((l.filter inlier).map Prod.fst).sum + x.2 / ((l.filter inlier).map Prod.snd).sum)).sum)).filter
        fun r => !r.isNan).sum / .fin (Real.log 2)) := by
  unfold compute
  rw [if_neg (by simpa using hl)]
  simp only [List.map_map, Function.comp_def, KL.zipWith_map_self]

theorem inlier_iff (x : XF ℝ × XF ℝ) : inlier x = true ↔
    ((∃ a, 0 < a ∧ x.1 = .fin a) ∨ x.1 = .pinf) ∧ ((∃ a, 0 < a ∧ x.2 = .fin a) ∨ x.2 = .pinf) := by
  obtain ⟨a, b⟩ := x
  cases a <;> cases b <;> simp [inlier, XF.ltb, XF.isNan]

theorem compute_fin (l : Pairs ℝ) (hl : l ≠ []) {r : List (ℝ × ℝ)} (h : KL.Pos r)
    (hr : l.filter inlier = r.map fun x => (XF.fin x.1, XF.fin x.2)) :
    compute l = .ok (.fin (real r / Real.log 2)) := by
  rw [compute_eq l hl]
  congr 1
  have hlog : Real.log 2 ≠ 0 := (Real.log_pos (by norm_num)).ne'
  rw [hr]
  by_cases hr0 : r = []
  · subst hr0
    simp [real, XF.fin_div_ne _ _ hlog]
  have h1 := h.sum_fst hr0
  have h2 := h.sum_snd hr0
  rw [KL.fst_finPair, KL.snd_finPair]
  simp only [List.map_map, Function.comp_def, XF.fin_div_ne _ _ h1.ne', XF.fin_div_ne _ _ h2.ne', XF.fin_add, XF.fin_mul]
  have hm : (r.map fun x => XF.fin (1/2 * (x.1 / (r.map Prod.fst).sum + x.2 / (r.map Prod.snd).sum))).sum = .fin 1 := by
    have := XF.sum_map_fin (r.map fun x => 1/2 * (x.1 / (r.map Prod.fst).sum + x.2 / (r.map Prod.snd).sum))
    rw [List.map_map] at this
    refine this.trans ?_
    congr 1
    rw [List.sum_map_mul_left, List.sum_map_add, KL.sum_div_self r Prod.fst h1.ne', KL.sum_div_self r Prod.snd h2.ne']
    norm_num
  rw [hm]
  have ht : ∀ x ∈ r, term (.fin (x.1 / (r.map Prod.fst).sum)) (.fin (x.2 / (r.map Prod.snd).sum))
      (.fin (1/2 * (x.1 / (r.map Prod.fst).sum + x.2 / (r.map Prod.snd).sum)) / .fin 1) =
      .fin (1/2 * (x.1 / (r.map Prod.fst).sum) * Real.log (x.1 / (r.map Prod.fst).sum / (1/2 * (x.1 / (r.map Prod.fst).sum + x.2 / (r.map Prod.snd).sum)))
        + 1/2 * (x.2 / (r.map Prod.snd).sum) * Real.log (x.2 / (r.map Prod.snd).sum / (1/2 * (x.1 / (r.map Prod.fst).sum + x.2 / (r.map Prod.snd).sum)))) := by
    intro x hx
    have hp := div_pos (h x hx).1 h1
    have hq := div_pos (h x hx).2 h2
    have hM : 0 < 1/2 * (x.1 / (r.map Prod.fst).sum + x.2 / (r.map Prod.snd).sum) := by positivity
    rw [XF.fin_div_ne _ _ one_ne_zero, div_one]
    unfold term
    rw [XF.fin_div_ne _ _ hM.ne', XF.fin_div_ne _ _ hM.ne']
    simp only [XF.log, not_lt.2 (div_pos hp hM).le, (div_pos hp hM).ne', not_lt.2 (div_pos hq hM).le, (div_pos hq hM).ne',
      if_false, XF.fin_mul, XF.fin_add]
  rw [List.map_congr_left ht]
  have hf : ∀ s : List ℝ, (s.map XF.fin).filter (fun r => !r.isNan) = s.map XF.fin := by
    intro s
    rw [List.filter_eq_self]
    intro a ha
    obtain ⟨b, _, rfl⟩ := List.mem_map.1 ha
    rfl
  have e := hf (r.map fun x => 1/2 * (x.1 / (r.map Prod.fst).sum) * Real.log (x.1 / (r.map Prod.fst).sum / (1/2 * (x.1 / (r.map Prod.fst).sum + x.2 / (r.map Prod.snd).sum)))
        + 1/2 * (x.2 / (r.map Prod.snd).sum) * Real.log (x.2 / (r.map Prod.snd).sum / (1/2 * (x.1 / (r.map Prod.fst).sum + x.2 / (r.map Prod.snd).sum))))
  have e' := (congrArg List.sum e).trans (XF.sum_map_fin _)
  rw [List.map_map] at e'
  refine (congrArg (· / XF.fin (Real.log 2)) e').trans ?_
  exact XF.fin_div_ne _ _ hlog

theorem real_split {r : List (ℝ × ℝ)} (h : KL.Pos r) (hr : r ≠ []) :
    let P := fun x : ℝ × ℝ => x.1 / (r.map Prod.fst).sum
    let Q := fun x : ℝ × ℝ => x.2 / (r.map Prod.snd).sum
    let M := fun x : ℝ × ℝ => 1/2 * (P x + Q x)
    real r = 1/2 * (r.map fun x => P x * (Real.log (P x) - Real.log (M x))).sum +
      1/2 * (r.map fun x => Q x * (Real.log (Q x) - Real.log (M x))).sum := by
  intro P Q M
  have h1 := h.sum_fst hr
  have h2 := h.sum_snd hr
  rw [← List.sum_map_mul_left, ← List.sum_map_mul_left, ← List.sum_map_add]
  refine congrArg List.sum (List.map_congr_left fun x hx => ?_)
  have hp : 0 < P x := div_pos (h x hx).1 h1
  have hq : 0 < Q x := div_pos (h x hx).2 h2
  have hM : 0 < 1/2 * (P x + Q x) := by positivity
  show 1/2 * P x * Real.log (P x / (1/2 * (P x + Q x))) + 1/2 * Q x * Real.log (Q x / (1/2 * (P x + Q x))) =
    1/2 * (P x * (Real.log (P x) - Real.log (1/2 * (P x + Q x)))) + 1/2 * (Q x * (Real.log (Q x) - Real.log (1/2 * (P x + Q x))))
  rw [Real.log_div hp.ne' hM.ne', Real.log_div hq.ne' hM.ne']
  ring

theorem real_facts {r : List (ℝ × ℝ)} (h : KL.Pos r) :
    0 ≤ real r ∧ real r ≤ Real.log 2 ∧ (real r = 0 ↔ ∃ c, 0 < c ∧ ∀ x ∈ r, x.2 = c * x.1) := by
  by_cases hr : r = []
  · subst hr
    refine ⟨by simp [real], by simp [real]; exact Real.log_nonneg (by norm_num), ?_⟩
    simp [real]
    exact ⟨1, one_pos⟩
  have h1 := h.sum_fst hr
  have h2 := h.sum_snd hr
  have hs := real_split h hr
  set P := fun x : ℝ × ℝ => x.1 / (r.map Prod.fst).sum with hP
  set Q := fun x : ℝ × ℝ => x.2 / (r.map Prod.snd).sum with hQ
  have pP : ∀ x ∈ r, 0 < P x := fun x hx => div_pos (h x hx).1 h1
  have pQ : ∀ x ∈ r, 0 < Q x := fun x hx => div_pos (h x hx).2 h2
  have pM : ∀ x ∈ r, 0 < 1/2 * (P x + Q x) := fun x hx => by have := pP x hx; have := pQ x hx; positivity
  have sP : (r.map P).sum = 1 := KL.sum_div_self r Prod.fst h1.ne'
  have sQ : (r.map Q).sum = 1 := KL.sum_div_self r Prod.snd h2.ne'
  have sM : (r.map fun x => 1/2 * (P x + Q x)).sum = 1 := by
    rw [List.sum_map_mul_left, List.sum_map_add, sP, sQ]; norm_num
  have g1 := gibbs r P (fun x => 1/2 * (P x + Q x)) pP pM (by rw [sP, sM])
  have g2 := gibbs r Q (fun x => 1/2 * (P x + Q x)) pQ pM (by rw [sQ, sM])
  simp only at hs
  refine ⟨by rw [hs]; linarith, ?_, ?_⟩
  · have u : ∀ (F : ℝ × ℝ → ℝ), (∀ x ∈ r, 0 < F x) → (∀ x ∈ r, F x ≤ 2 * (1/2 * (P x + Q x))) → (r.map F).sum = 1 →
        (r.map fun x => F x * (Real.log (F x) - Real.log (1/2 * (P x + Q x)))).sum ≤ Real.log 2 := by
      intro F hF hle hsum
      have := sum_le_sum' r (fun x => F x * (Real.log (F x) - Real.log (1/2 * (P x + Q x)))) (fun x => F x * Real.log 2) (by
        intro x hx
        apply mul_le_mul_of_nonneg_left _ (hF x hx).le
        have := Real.log_le_log (hF x hx) (hle x hx)
        rw [Real.log_mul two_ne_zero (pM x hx).ne'] at this
        linarith)
      rwa [List.sum_map_mul_right, hsum, one_mul] at this
    have u1 := u P pP (fun x hx => by have := pQ x hx; linarith) sP
    have u2 := u Q pQ (fun x hx => by have := pP x hx; linarith) sQ
    rw [hs]
    linarith
  · constructor
    · intro h0
      rw [hs] at h0
      have z1 : (r.map fun x => P x * (Real.log (P x) - Real.log (1/2 * (P x + Q x)))).sum = 0 := by linarith
      have e1 := gibbs_eq r P (fun x => 1/2 * (P x + Q x)) pP pM (by rw [sP, sM]) z1
      refine ⟨(r.map Prod.snd).sum / (r.map Prod.fst).sum, div_pos h2 h1, fun x hx => ?_⟩
      have e2 : P x = Q x := by have := e1 x hx; linarith
      simp only [hP, hQ] at e2
      field_simp at e2 ⊢
      linarith
    · rintro ⟨c, hc, hx⟩
      have hsum : (r.map Prod.snd).sum = c * (r.map Prod.fst).sum := by
        rw [← List.sum_map_mul_left]
        congr 1
        exact List.map_congr_left hx
      have e : ∀ x ∈ r, Q x = P x := by
        intro x hx'
        simp only [hP, hQ, hsum, hx x hx', mul_div_mul_left _ _ hc.ne']
      have z : ∀ F : ℝ × ℝ → ℝ, (∀ x ∈ r, F x = 1/2 * (P x + Q x)) →
          (r.map fun x => F x * (Real.log (F x) - Real.log (1/2 * (P x + Q x)))).sum = 0 := by
        intro F hF
        have : ∀ x ∈ r, F x * (Real.log (F x) - Real.log (1/2 * (P x + Q x))) = 0 := by
          intro x hx; rw [hF x hx, sub_self, mul_zero]
        rw [List.map_congr_left this]; simp
      rw [hs, z P (fun x hx => by rw [e x hx]; ring), z Q (fun x hx => by rw [e x hx]; ring)]
      norm_num

theorem real_scale (r : List (ℝ × ℝ)) {a b : ℝ} (ha : 0 < a) (hb : 0 < b) :
    real (r.map fun x => (a * x.1, b * x.2)) = real r := by
  unfold real
  simp only [List.map_map, Function.comp_def, List.sum_map_mul_left]
  congr 1
  refine List.map_congr_left fun x _ => ?_
  rw [mul_div_mul_left _ _ ha.ne', mul_div_mul_left _ _ hb.ne']

/-- An infinite inlier makes every term NaN, all of them are dropped and the value is 0. -/
theorem compute_bad (l : Pairs ℝ) (hb : ∃ x ∈ l.filter inlier, x.1 = .pinf ∨ x.2 = .pinf) :
    compute l = .ok (.fin 0) := by
  have hl : l ≠ [] := by rintro rfl; simp at hb
  rw [compute_eq l hl]
  have h' : ∀ x ∈ l.filter inlier, _ := fun x hx => (inlier_iff x).1 (List.mem_filter.1 hx).2
  generalize l.filter inlier = inl at hb h' ⊢
  have n1 : ∀ y ∈ inl.map Prod.fst, y ≠ XF.nan ∧ y ≠ XF.ninf := by
    simp only [List.mem_map]; rintro _ ⟨x, hx, rfl⟩
    rcases (h' x hx).1 with ⟨a, _, e⟩ | e <;> rw [e] <;> simp
  have n2 : ∀ y ∈ inl.map Prod.snd, y ≠ XF.nan ∧ y ≠ XF.ninf := by
    simp only [List.mem_map]; rintro _ ⟨x, hx, rfl⟩
    rcases (h' x hx).2 with ⟨a, _, e⟩ | e <;> rw [e] <;> simp
  have hsm : (inl.map fun x => XF.fin (1/2) * (x.1 / (inl.map Prod.fst).sum + x.2 / (inl.map Prod.snd).sum)).sum = .nan := by
    apply sum_nan_mem
    obtain ⟨x, hx, e | e⟩ := hb
    · refine List.mem_map.2 ⟨x, hx, ?_⟩
      rw [sum_pinf n1 (e ▸ List.mem_map_of_mem hx), e, show (XF.pinf / XF.pinf : XF ℝ) = .nan from rfl]
      simp
    · refine List.mem_map.2 ⟨x, hx, ?_⟩
      rw [sum_pinf n2 (e ▸ List.mem_map_of_mem hx), e, show (XF.pinf / XF.pinf : XF ℝ) = .nan from rfl]
      simp
  rw [hsm]
  have hlog : Real.log 2 ≠ 0 := (Real.log_pos (by norm_num)).ne'
  simp [term, XF.log, XF.isNan, XF.fin_div_ne _ _ hlog]

end JSD
end Verif
