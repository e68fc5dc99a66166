import Verif.Proof.HiDaiseeChain
import Verif.Props.HiDaiseeWeights

/-!
# HiDaisee on an interval whose right half is three times as likely as its left half (C138)
-/

set_option linter.unusedSectionVars false
set_option autoImplicit false

namespace Verif
namespace HiD

open MeasureTheory

theorem iterations_snoc {d : ℕ} {c : Cfg ℝ} {target : Pt ℝ d → XF ℝ} (it : Iter ℝ d) : ∀ (its : List (Iter ℝ d)) (t : ℕ)
    (S S1 : Sampler ℝ d) (T : Tree ℝ d) (k : ℕ), iterations c target t its S = .ok S1 →
    iterate c target (t + its.length) it S1.T = .ok (T, k) →
    ∃ S2, iterations c target t (its ++ [it]) S = .ok S2 ∧ S2.T = T
  | [], t, S, S1, T, k, h, h1 => by
    simp only [iterations, Except.ok.injEq] at h
    subst h
    simp only [List.length_nil, add_zero] at h1
    simp only [List.nil_append, iterations, h1]
    exact ⟨_, rfl, rfl⟩
  | i :: its, t, S, S1, T, k, h, h1 => by
    simp only [iterations, List.cons_append] at h ⊢
    split at h
    · cases h
    · rename_i T0 k0 h0
      exact iterations_snoc it its (t + 1) _ S1 T k h (by rw [← h1, List.length_cons]; congr 1; omega)

/-- The target: 1 on the left half, 3 on the right half. -/
noncomputable def twoLevel (x : Pt ℝ 1) : ℝ := if x 0 < 0 then 1 else 3

/-- The samples on the left. -/
noncomputable def lefts (xs : List (Pt ℝ 1)) : List (Pt ℝ 1) := xs.filter fun x => x 0 < 0

/-- The samples on the right. -/
noncomputable def rights (xs : List (Pt ℝ 1)) : List (Pt ℝ 1) := xs.filter fun x => ¬ x 0 < 0

theorem lefts_pos {x : Pt ℝ 1} (h : x 0 < 0) (xs : List (Pt ℝ 1)) : lefts (x :: xs) = x :: lefts xs :=
  List.filter_cons_of_pos (by simpa using h)

theorem lefts_neg {x : Pt ℝ 1} (h : ¬ x 0 < 0) (xs : List (Pt ℝ 1)) : lefts (x :: xs) = lefts xs :=
  List.filter_cons_of_neg (by simpa using h)

theorem rights_neg {x : Pt ℝ 1} (h : x 0 < 0) (xs : List (Pt ℝ 1)) : rights (x :: xs) = rights xs :=
  List.filter_cons_of_neg (by simpa using h)

theorem rights_pos {x : Pt ℝ 1} (h : ¬ x 0 < 0) (xs : List (Pt ℝ 1)) : rights (x :: xs) = x :: rights xs :=
  List.filter_cons_of_pos (by simpa using h)

/-- The root before it is cut. -/
noncomputable def whole (q : XF ℝ) (xs : List (Pt ℝ 1)) (e : XF ℝ) : Node ℝ 1 :=
  nd 0 1 q none none (some xs) (xs.map fun x => XF.fin (2 * twoLevel x)) xs.length e

/-- The left leaf. -/
noncomputable def leafL (q : XF ℝ) (xs : List (Pt ℝ 1)) (e : XF ℝ) : Node ℝ 1 :=
  nd (-1 / 2) (1 / 2) q none none (some xs) (List.replicate xs.length (XF.fin 1)) xs.length e

/-- The right leaf. -/
noncomputable def leafR (q : XF ℝ) (xs : List (Pt ℝ 1)) (e : XF ℝ) : Node ℝ 1 :=
  nd (1 / 2) (1 / 2) q none none (some xs) (List.replicate xs.length (XF.fin 3)) xs.length e

/-- The root after the cut. -/
noncomputable def top (q : XF ℝ) (w : List (XF ℝ)) (N : ℕ) (e : XF ℝ) : Node ℝ 1 := nd 0 1 q (some 1) (some 2) none w N e

theorem whole_N (q : XF ℝ) (xs : List (Pt ℝ 1)) (e : XF ℝ) : (whole q xs e).N = xs.length := rfl

theorem whole_ess (q : XF ℝ) (xs : List (Pt ℝ 1)) (e : XF ℝ) : (whole q xs e).ess = e := rfl

theorem whole_sums (xs : List (Pt ℝ 1)) :
    (xs.map fun x => XF.fin (2 * twoLevel x)).sum = XF.fin (2 * ((lefts xs).length : ℝ) + 6 * ((rights xs).length : ℝ)) ∧
    ((xs.map fun x => XF.fin (2 * twoLevel x)).map fun w => w * w).sum =
      XF.fin (4 * ((lefts xs).length : ℝ) + 36 * ((rights xs).length : ℝ)) := by
  induction xs with
  | nil => simp [lefts, rights]
  | cons x xs ih =>
    simp only [List.map_cons, List.sum_cons, ih.1, ih.2, XF.fin_mul, XF.fin_add]
    by_cases h : x 0 < 0
    · have e1 : lefts (x :: xs) = x :: lefts xs := lefts_pos h _
      have e2 : rights (x :: xs) = rights xs := rights_neg h _
      rw [e1, e2, List.length_cons]
      simp only [twoLevel, h, if_true]
      push_cast
      constructor <;> congr 1 <;> ring
    · have e1 : lefts (x :: xs) = lefts xs := lefts_neg h _
      have e2 : rights (x :: xs) = x :: rights xs := rights_pos h _
      rw [e1, e2, List.length_cons]
      simp only [twoLevel, h, if_false]
      push_cast
      constructor <;> congr 1 <;> ring

theorem counts (xs : List (Pt ℝ 1)) : (lefts xs).length + (rights xs).length = xs.length := by
  induction xs with
  | nil => rfl
  | cons x xs ih =>
    by_cases h : x 0 < 0
    · have e1 : lefts (x :: xs) = x :: lefts xs := lefts_pos h _
      have e2 : rights (x :: xs) = rights xs := rights_neg h _
      rw [e1, e2, List.length_cons, List.length_cons]; omega
    · have e1 : lefts (x :: xs) = lefts xs := lefts_neg h _
      have e2 : rights (x :: xs) = x :: rights xs := rights_pos h _
      rw [e1, e2, List.length_cons, List.length_cons]; omega

theorem whole_add (q : XF ℝ) (xs : List (Pt ℝ 1)) (e : XF ℝ) (x : Pt ℝ 1) :
    (whole q xs e).addSample x (XF.fin (2 * twoLevel x)) =
      whole q (xs ++ [x]) (XF.fin (essOf (lefts (xs ++ [x])).length (rights (xs ++ [x])).length)) := by
  have hs := whole_sums (xs ++ [x])
  have hpos : (4 * ((lefts (xs ++ [x])).length : ℝ) + 36 * ((rights (xs ++ [x])).length : ℝ)) ≠ 0 := by
    have : (1 : ℝ) ≤ ((lefts (xs ++ [x])).length : ℝ) + (rights (xs ++ [x])).length := by
      have := counts (xs ++ [x])
      rw [List.length_append, List.length_singleton] at this
      exact_mod_cast (by omega : 1 ≤ (lefts (xs ++ [x])).length + (rights (xs ++ [x])).length)
    have h2 : (0 : ℝ) ≤ (rights (xs ++ [x])).length := by positivity
    nlinarith
  unfold whole
  conv_lhs => rw [fin1_eq x]
  rw [nd_add, ← fin1_eq x]
  have e1 : (xs.map fun x => XF.fin (2 * twoLevel x)) ++ [XF.fin (2 * twoLevel x)] =
      (xs ++ [x]).map fun x => XF.fin (2 * twoLevel x) := by simp
  rw [e1, hs.1, hs.2, XF.fin_mul, XF.fin_div_ne _ _ hpos, List.length_append, List.length_singleton]
  rfl

theorem leaf_ess (n : ℕ) (a : ℝ) (ha : 0 < a) : (((List.replicate (n + 1) (XF.fin a)).sum * (List.replicate (n + 1) (XF.fin a)).sum) /
    ((List.replicate (n + 1) (XF.fin a)).map fun w => w * w).sum) = XF.fin ((n + 1 : ℕ) : ℝ) := by
  have h : ∀ (k : ℕ) (b : ℝ), (List.replicate k (XF.fin b)).sum = XF.fin (k * b) := by
    intro k b
    induction k with
    | zero => simp
    | succ k ih => rw [List.replicate_succ, List.sum_cons, ih, XF.fin_add]; congr 1; push_cast; ring
  have hk : (0 : ℝ) < ((n + 1 : ℕ) : ℝ) := by positivity
  rw [List.map_replicate, XF.fin_mul, h, h, XF.fin_mul, XF.fin_div_ne _ _ (by positivity)]
  congr 1
  field_simp

theorem leafL_add (q : XF ℝ) (xs : List (Pt ℝ 1)) (e : XF ℝ) (x : Pt ℝ 1) :
    (leafL q xs e).addSample x (XF.fin 1) = leafL q (xs ++ [x]) (XF.fin ((xs.length + 1 : ℕ) : ℝ)) := by
  unfold leafL
  conv_lhs => rw [fin1_eq x]
  rw [nd_add, ← fin1_eq x, ← List.replicate_succ', leaf_ess _ _ one_pos, List.length_append, List.length_singleton]

theorem leafR_add (q : XF ℝ) (xs : List (Pt ℝ 1)) (e : XF ℝ) (x : Pt ℝ 1) :
    (leafR q xs e).addSample x (XF.fin 3) = leafR q (xs ++ [x]) (XF.fin ((xs.length + 1 : ℕ) : ℝ)) := by
  unfold leafR
  conv_lhs => rw [fin1_eq x]
  rw [nd_add, ← fin1_eq x, ← List.replicate_succ', leaf_ess _ _ (by norm_num), List.length_append, List.length_singleton]

theorem leafL_prob (q : XF ℝ) (xs : List (Pt ℝ 1)) (e : XF ℝ) {x : Pt ℝ 1} (h1 : -1 < x 0) (h2 : x 0 < 0) :
    (leafL q xs e).sampler.prob1 x = XF.fin 1 := by
  unfold leafL
  rw [fin1_eq x, nd_prob] <;> norm_num <;> linarith

theorem leafR_prob (q : XF ℝ) (xs : List (Pt ℝ 1)) (e : XF ℝ) {x : Pt ℝ 1} (h1 : 0 < x 0) (h2 : x 0 < 1) :
    (leafR q xs e).sampler.prob1 x = XF.fin 1 := by
  unfold leafR
  rw [fin1_eq x, nd_prob] <;> norm_num <;> linarith

theorem push_left (q q' : XF ℝ) (xs ys : List (Pt ℝ 1)) (e e' : XF ℝ) {x : Pt ℝ 1} (h1 : -1 < x 0) (h2 : x 0 < 0) :
    push (fun x => .fin (twoLevel x)) 0 (leafL q xs e, leafR q' ys e') x =
      .ok (leafL q (xs ++ [x]) (XF.fin ((xs.length + 1 : ℕ) : ℝ)), leafR q' ys e') := by
  unfold push
  have hc : x 0 < (leafL q xs e).center 0 + (leafL q xs e).radius 0 := by
    show x 0 < -1 / 2 + 1 / 2
    linarith
  have ht : twoLevel x = 1 := if_pos h2
  simp only [hc, if_true, leafL_prob q xs e h1 h2, ht]
  rw [if_neg (by norm_num [XF.leb]), XF.fin_div_ne _ _ one_ne_zero, div_one, leafL_add]

theorem push_right (q q' : XF ℝ) (xs ys : List (Pt ℝ 1)) (e e' : XF ℝ) {x : Pt ℝ 1} (h1 : 0 < x 0) (h2 : x 0 < 1) :
    push (fun x => .fin (twoLevel x)) 0 (leafL q xs e, leafR q' ys e') x =
      .ok (leafL q xs e, leafR q' (ys ++ [x]) (XF.fin ((ys.length + 1 : ℕ) : ℝ))) := by
  unfold push
  have hc : ¬ x 0 < (leafL q xs e).center 0 + (leafL q xs e).radius 0 := by
    show ¬ x 0 < -1 / 2 + 1 / 2
    linarith
  have ht : twoLevel x = 3 := if_neg (by linarith)
  simp only [hc, if_false, leafR_prob q' ys e' h1 h2, ht]
  rw [if_neg (by norm_num [XF.leb]), XF.fin_div_ne _ _ one_ne_zero, div_one, leafR_add]

/-- Samples inside the interval, not on the cut. -/
def Inside (x : Pt ℝ 1) : Prop := -1 < x 0 ∧ x 0 < 1 ∧ x 0 ≠ 0

theorem push_all (q q' : XF ℝ) : ∀ (zs : List (Pt ℝ 1)) (xs ys : List (Pt ℝ 1)) (e e' : XF ℝ), (∀ x ∈ zs, Inside x) →
    ∃ f f', zs.foldlM (push (fun x => .fin (twoLevel x)) 0) (leafL q xs e, leafR q' ys e') =
      .ok (leafL q (xs ++ lefts zs) f, leafR q' (ys ++ rights zs) f')
  | [], xs, ys, e, e', _ => ⟨e, e', by simp [lefts, rights, pure, Except.pure]⟩
  | z :: zs, xs, ys, e, e', h => by
    obtain ⟨h1, h2, h3⟩ := h z List.mem_cons_self
    have h' := fun x hx => h x (List.mem_cons_of_mem _ hx)
    by_cases hz : z 0 < 0
    · obtain ⟨f, f', hf⟩ := push_all q q' zs (xs ++ [z]) ys (XF.fin ((xs.length + 1 : ℕ) : ℝ)) e' h'
      refine ⟨f, f', ?_⟩
      rw [List.foldlM_cons, push_left q q' xs ys e e' h1 hz]
      have e1 : lefts (z :: zs) = z :: lefts zs := lefts_pos hz _
      have e2 : rights (z :: zs) = rights zs := rights_neg hz _
      rw [e1, e2]
      simpa [bind, Except.bind] using hf
    · have hz' : 0 < z 0 := lt_of_le_of_ne (not_lt.1 hz) (Ne.symm h3)
      obtain ⟨f, f', hf⟩ := push_all q q' zs xs (ys ++ [z]) e (XF.fin ((ys.length + 1 : ℕ) : ℝ)) h'
      refine ⟨f, f', ?_⟩
      rw [List.foldlM_cons, push_right q q' xs ys e e' hz' h2]
      have e1 : lefts (z :: zs) = lefts zs := lefts_neg hz _
      have e2 : rights (z :: zs) = z :: rights zs := rights_pos hz _
      rw [e1, e2]
      simpa [bind, Except.bind] using hf

theorem split_whole (xs : List (Pt ℝ 1)) (e : XF ℝ) (h : ∀ x ∈ xs, Inside x) : ∃ w N f f',
    (⟨[whole (XF.fin 1) xs e], [0]⟩ : Tree ℝ 1).split 0 0 (fun x => .fin (twoLevel x)) =
      .ok ⟨[top (XF.fin 1) w N e, leafL (XF.fin (1 / 2)) (lefts xs) f, leafR (XF.fin (1 / 2)) (rights xs) f'], [1, 2]⟩ := by
  obtain ⟨f, f', hf⟩ := push_all (XF.fin (1 / 2)) (XF.fin (1 / 2)) xs [] [] (XF.fin 0) (XF.fin 0) h
  refine ⟨xs.map fun x => XF.fin (2 * twoLevel x), xs.length, f, f', ?_⟩
  have hch : children (whole (XF.fin 1) xs e) 0 = (leafL (XF.fin (1 / 2)) [] (XF.fin 0), leafR (XF.fin (1 / 2)) [] (XF.fin 0)) := by
    unfold whole leafL leafR
    rw [nd_children, XF.fin_div_ne _ _ two_ne_zero]
    norm_num
  unfold Tree.split
  simp only [List.getElem?_cons_zero, hch]
  have hs : (whole (XF.fin 1) xs e).samples = some xs := rfl
  simp only [hs]
  rw [hf]
  simp [whole, top, nd]

/-! ### One iteration -/

/-- The tree before the cut, `a` samples on the left, `b` on the right. -/
def IsWhole (T : Tree ℝ 1) (a b : ℝ) : Prop :=
  ∃ q xs e, T = ⟨[whole q xs e], [0]⟩ ∧ (∀ x ∈ xs, Inside x) ∧ a = (lefts xs).length ∧ b = (rights xs).length

/-- The tree after the cut. -/
def IsCut (T : Tree ℝ 1) (ql qr a b : ℝ) : Prop :=
  ∃ q w N e xs ys f f', T = ⟨[top q w N e, leafL (XF.fin ql) xs f, leafR (XF.fin qr) ys f'], [1, 2]⟩ ∧
    (∀ x ∈ xs, x 0 < 0) ∧ (∀ x ∈ ys, ¬ x 0 < 0) ∧ a = xs.length ∧ b = ys.length ∧ xs ≠ [] ∧ ys ≠ []

/-- What the generator delivers with probability one. -/
def Proper (u : Pt ℝ 1) : Prop := 0 < u 0 ∧ u 0 < 1 ∧ u 0 ≠ 1 / 2

theorem whole_step {σ e : ℝ} {m t : ℕ} (hσ : 0 ≤ σ) (he : e < 1) {T : Tree ℝ 1} {a b : ℝ} (hT : IsWhole T a b)
    (ht : a + b = t) (rs : ℕ → ℝ) {u : Pt ℝ 1} (hu : Proper u) (j : Fin 1) (a' b' : ℝ)
    (ha : a' = if u 0 < 1 / 2 then a + 1 else a) (hb : b' = if u 0 < 1 / 2 then b else b + 1) :
    ∃ T' k, iterate ⟨realBoost σ, m, e⟩ (fun x => .fin (twoLevel x)) t ⟨rs, u, j⟩ T = .ok (T', k) ∧
      (¬ cutRule m e a' b' → IsWhole T' a' b') ∧ (cutRule m e a' b' → IsCut T' (1 / 2) (1 / 2) a' b') := by
  obtain ⟨q, xs, f, rfl, hin, h1, h2⟩ := hT
  set x : Pt ℝ 1 := ![-1 + 2 * u 0] with hx
  have hx0 : x 0 = -1 + 2 * u 0 := rfl
  have hxin : Inside x := by
    refine ⟨by rw [hx0]; linarith [hu.1], by rw [hx0]; linarith [hu.2.1], ?_⟩
    rw [hx0]
    intro h
    exact hu.2.2 (by linarith)
  have hxl : x 0 < 0 ↔ u 0 < 1 / 2 := by rw [hx0]; constructor <;> intro h <;> linarith
  have hs : (whole q xs f).sampler.sample1 u = x := by
    unfold whole
    rw [fin1_eq u, nd_sample, hx]
    norm_num
  have hp : (whole q xs f).sampler.prob1 x = XF.fin (1 / 2) := by
    unfold whole
    rw [fin1_eq x, nd_prob one_pos (by linarith [hxin.1]) (by linarith [hxin.2.1])]
    norm_num
  have hw : XF.fin (twoLevel x) / XF.fin (1 / 2) = XF.fin (2 * twoLevel x) := by
    rw [XF.fin_div_ne _ _ (by norm_num)]
    congr 1
    ring
  have hcl : a' = (lefts (xs ++ [x])).length := by
    rw [ha]
    unfold lefts
    rw [List.filter_append, List.length_append]
    by_cases h : u 0 < 1 / 2
    · rw [if_pos h, List.filter_cons_of_pos (by simpa using hxl.2 h), h1]
      unfold lefts; simp
    · rw [if_neg h, List.filter_cons_of_neg (by simpa using fun h' => h (hxl.1 h')), h1]
      unfold lefts; simp
  have hcr : b' = (rights (xs ++ [x])).length := by
    rw [hb]
    unfold rights
    rw [List.filter_append, List.length_append]
    by_cases h : u 0 < 1 / 2
    · rw [if_pos h, List.filter_cons_of_neg (by simpa using hxl.2 h), h2]
      unfold rights; simp
    · rw [if_neg h, List.filter_cons_of_pos (by simpa using fun h' => h (hxl.1 h')), h2]
      unfold rights; simp
  have hlen : ((xs ++ [x]).length : ℝ) = a' + b' := by
    rw [hcl, hcr, ← counts]
    push_cast
    rfl
  have hrule : cutRule m e a' b' ↔ (m ≤ (xs ++ [x]).length ∧
      XF.ltb (XF.fin (essOf (lefts (xs ++ [x])).length (rights (xs ++ [x])).length))
        (XF.fin (e * ((xs ++ [x]).length : ℝ))) = true) := by
    unfold cutRule
    rw [← hlen, ← hcl, ← hcr, Nat.cast_le]
    simp only [XF.ltb, decide_eq_true_eq]
  have hjs : j = 0 := Subsingleton.elim _ _
  subst hjs
  have hsel : (⟨[whole q xs f], [0]⟩ : Tree ℝ 1).select rs 1 0 [0] 0 = .ok ([0], 0) := by
    unfold Tree.select
    simp
  have hq : cutRule m e a' b' → ((whole q (xs ++ [x]) (XF.fin (essOf (lefts (xs ++ [x])).length (rights (xs ++ [x])).length))).mean +
      realBoost σ t (xs ++ [x]).length) / totalEv ⟨realBoost σ, m, e⟩ t ⟨[whole q (xs ++ [x])
        (XF.fin (essOf (lefts (xs ++ [x])).length (rights (xs ++ [x])).length))], [0]⟩ = XF.fin 1 := by
    intro hc
    have hn : 0 < (xs ++ [x]).length := by simp
    have ht0 : t ≠ 0 := by
      rintro rfl
      have h0 : xs = [] := by
        have h3 : ((lefts xs).length : ℝ) + (rights xs).length = 0 := by rw [← h1, ← h2, ht]; simp
        have h4 := counts xs
        have h5 : (lefts xs).length + (rights xs).length = 0 := by exact_mod_cast h3
        exact List.length_eq_zero_iff.1 (by omega)
      have h3 := hc.2
      rw [hcl, hcr, h0] at h3
      by_cases hx' : x 0 < 0
      · rw [List.nil_append, lefts_pos hx', rights_neg hx'] at h3
        norm_num [lefts, rights, essOf] at h3
        linarith
      · rw [List.nil_append, lefts_neg hx', rights_pos hx'] at h3
        norm_num [lefts, rights, essOf] at h3
        linarith
    have hm : (whole q (xs ++ [x]) (XF.fin (essOf (lefts (xs ++ [x])).length (rights (xs ++ [x])).length))).mean =
        XF.fin ((2 * a' + 6 * b') / (a' + b')) := by
      unfold Node.mean
      have e1 : (whole q (xs ++ [x]) (XF.fin (essOf (lefts (xs ++ [x])).length (rights (xs ++ [x])).length))).weights =
        (xs ++ [x]).map fun x => XF.fin (2 * twoLevel x) := rfl
      rw [e1, (whole_sums _).1, List.length_map, hlen, ← hcl, ← hcr, XF.fin_div_ne]
      rw [← hlen]
      exact_mod_cast hn.ne'
    have hpos : 0 < (2 * a' + 6 * b') / (a' + b') := by
      have h3 : 0 < a' + b' := by rw [← hlen]; exact_mod_cast hn
      have h4 : 0 ≤ b' := by rw [hcr]; positivity
      exact div_pos (by linarith) h3
    have hev : totalEv ⟨realBoost σ, m, e⟩ t ⟨[whole q (xs ++ [x])
        (XF.fin (essOf (lefts (xs ++ [x])).length (rights (xs ++ [x])).length))], [0]⟩ =
        XF.fin ((2 * a' + 6 * b') / (a' + b') + σ * Real.sqrt (Real.log t / ((xs ++ [x]).length : ℝ))) := by
      unfold totalEv
      simp only [List.map_cons, List.map_nil, List.getElem?_cons_zero, hm, List.sum_cons, List.sum_nil]
      have e2 : (whole q (xs ++ [x]) (XF.fin (essOf (lefts (xs ++ [x])).length (rights (xs ++ [x])).length))).N =
        (xs ++ [x]).length := rfl
      rw [e2, if_pos hn]
      unfold realBoost
      rw [if_neg ht0, XF.fin_add, add_zero]
    rw [hm, hev]
    unfold realBoost
    rw [if_neg ht0, XF.fin_add, XF.fin_div_ne]
    · rw [div_self]
      have : 0 ≤ σ * Real.sqrt (Real.log t / ((xs ++ [x]).length : ℝ)) := by positivity
      linarith
    · have : 0 ≤ σ * Real.sqrt (Real.log t / ((xs ++ [x]).length : ℝ)) := by positivity
      linarith
  unfold iterate
  rw [show (⟨[whole q xs f], [0]⟩ : Tree ℝ 1).nodes.length = 1 from rfl, hsel]
  simp only [List.getElem?_cons_zero, hs, hp, hw, whole_add]
  rw [if_neg (by norm_num [XF.ltb])]
  have hall : ∀ z ∈ xs ++ [x], Inside z := by
    intro z hz
    rcases List.mem_append.1 hz with hz | hz
    · exact hin z hz
    · rw [List.mem_singleton.1 hz]; exact hxin
  by_cases hc : cutRule m e a' b'
  · obtain ⟨w, N, g, g', hsp⟩ := split_whole (xs ++ [x])
      (XF.fin (essOf (lefts (xs ++ [x])).length (rights (xs ++ [x])).length)) hall
    split
    swap
    · rename_i hno
      exact absurd (hrule.1 hc) hno
    have hne : lefts (xs ++ [x]) ≠ [] ∧ rights (xs ++ [x]) ≠ [] := by
      have hn : 0 < a' + b' := by rw [← hlen]; exact_mod_cast (by simp : 0 < (xs ++ [x]).length)
      have h3 := hc.2
      constructor
      · intro h0
        have ha0 : a' = 0 := by rw [hcl, h0]; simp
        rw [ha0] at h3 hn
        unfold essOf at h3
        have : (2 * 0 + 6 * b') * (2 * 0 + 6 * b') / (4 * 0 + 36 * b') = b' := by
          have : b' ≠ 0 := by linarith
          field_simp
          ring
        rw [this] at h3
        nlinarith
      · intro h0
        have hb0 : b' = 0 := by rw [hcr, h0]; simp
        rw [hb0] at h3 hn
        unfold essOf at h3
        have : (2 * a' + 6 * 0) * (2 * a' + 6 * 0) / (4 * a' + 36 * 0) = a' := by
          have : a' ≠ 0 := by linarith
          field_simp
          ring
        rw [this] at h3
        nlinarith
    refine ⟨⟨[top (XF.fin 1) w N (XF.fin (essOf (lefts (xs ++ [x])).length (rights (xs ++ [x])).length)), leafL (XF.fin (1 / 2)) (lefts (xs ++ [x])) g,
      leafR (XF.fin (1 / 2)) (rights (xs ++ [x])) g'], [1, 2]⟩, 1 + (xs ++ [x]).length, ?_, fun h => absurd hc h, fun _ => ?_⟩
    · show Except.map _ (Tree.split ⟨[whole (((whole q (xs ++ [x]) (XF.fin (essOf (lefts (xs ++ [x])).length
        (rights (xs ++ [x])).length))).mean + realBoost σ t (xs ++ [x]).length) / totalEv ⟨realBoost σ, m, e⟩ t
        ⟨[whole q (xs ++ [x]) (XF.fin (essOf (lefts (xs ++ [x])).length (rights (xs ++ [x])).length))], [0]⟩) (xs ++ [x])
        (XF.fin (essOf (lefts (xs ++ [x])).length (rights (xs ++ [x])).length))], [0]⟩ 0 0 _) = _
      rw [hq hc, hsp]
      rfl
    · exact ⟨_, _, _, _, _, _, _, _, rfl, fun z hz => by simpa using (List.mem_filter.1 hz).2,
        fun z hz => by simpa using (List.mem_filter.1 hz).2, hcl, hcr, hne.1, hne.2⟩
  · split
    · rename_i hyes
      exact absurd (hrule.2 hyes) hc
    exact ⟨_, _, rfl, fun _ => ⟨_, xs ++ [x], _, rfl, hall, hcl, hcr⟩, fun h => absurd h hc⟩

theorem leafL_mean (q : XF ℝ) (xs : List (Pt ℝ 1)) (e : XF ℝ) (h : xs ≠ []) : (leafL q xs e).mean = XF.fin 1 := by
  have hn : (xs.length : ℝ) ≠ 0 := by exact_mod_cast (List.length_pos_of_ne_nil h).ne'
  have e1 : (List.replicate xs.length (XF.fin (1 : ℝ))) = (List.replicate xs.length (1 : ℝ)).map XF.fin := by simp
  show (List.replicate xs.length (XF.fin (1 : ℝ))).sum / XF.fin ((List.replicate xs.length (XF.fin (1 : ℝ))).length : ℝ) = _
  rw [e1, XF.sum_map_fin, List.sum_replicate, List.length_map, List.length_replicate, XF.fin_div_ne _ _ hn, nsmul_eq_mul, mul_one,
    div_self hn]

theorem leafR_mean (q : XF ℝ) (xs : List (Pt ℝ 1)) (e : XF ℝ) (h : xs ≠ []) : (leafR q xs e).mean = XF.fin 3 := by
  have hn : (xs.length : ℝ) ≠ 0 := by exact_mod_cast (List.length_pos_of_ne_nil h).ne'
  have e1 : (List.replicate xs.length (XF.fin (3 : ℝ))) = (List.replicate xs.length (3 : ℝ)).map XF.fin := by simp
  show (List.replicate xs.length (XF.fin (3 : ℝ))).sum / XF.fin ((List.replicate xs.length (XF.fin (3 : ℝ))).length : ℝ) = _
  rw [e1, XF.sum_map_fin, List.sum_replicate, List.length_map, List.length_replicate, XF.fin_div_ne _ _ hn, nsmul_eq_mul,
    mul_div_cancel_left₀ _ hn]

theorem cut_total {σ e : ℝ} {m t : ℕ} (ht : t ≠ 0) (q : XF ℝ) (w : List (XF ℝ)) (N : ℕ) (f : XF ℝ) (ql qr : XF ℝ)
    (xs ys : List (Pt ℝ 1)) (g g' : XF ℝ) (hx : xs ≠ []) (hy : ys ≠ []) :
    totalEv ⟨realBoost σ, m, e⟩ t ⟨[top q w N f, leafL ql xs g, leafR qr ys g'], [1, 2]⟩ =
      XF.fin (1 + bst σ t xs.length + (3 + bst σ t ys.length)) := by
  have n1 : (leafL ql xs g).N = xs.length := rfl
  have n2 : (leafR qr ys g').N = ys.length := rfl
  unfold totalEv
  simp only [List.map_cons, List.map_nil, List.getElem?_cons_zero, List.getElem?_cons_succ, n1, n2, leafL_mean _ _ _ hx,
    leafR_mean _ _ _ hy, List.length_pos_of_ne_nil hx, List.length_pos_of_ne_nil hy, if_true, List.sum_cons, List.sum_nil,
    realBoost, ht, if_false, XF.fin_add, add_zero]
  rfl

theorem cut_step {σ e : ℝ} {m t : ℕ} (hσ : 0 ≤ σ) (he : e < 1) {T : Tree ℝ 1} {ql qr a b : ℝ} (hql : 0 < ql) (hqr : 0 < qr)
    (hT : IsCut T ql qr a b) (ht : a + b = t) (rs : ℕ → ℝ) {u : Pt ℝ 1} (hu : Proper u) (j : Fin 1) :
    ∃ T' k, iterate ⟨realBoost σ, m, e⟩ (fun x => .fin (twoLevel x)) t ⟨rs, u, j⟩ T = .ok (T', k) ∧
      (rs 0 < ql / (qr + ql) → IsCut T' (massL σ t (a + 1) b) qr (a + 1) b) ∧
      (¬ rs 0 < ql / (qr + ql) → IsCut T' ql (massR σ t a (b + 1)) a (b + 1)) := by
  obtain ⟨q, w, N, f, xs, ys, g, g', rfl, hxs, hys, h1, h2, hx, hy⟩ := hT
  have ht0 : t ≠ 0 := by
    have h3 : (0 : ℝ) < a := by rw [h1]; exact_mod_cast List.length_pos_of_ne_nil hx
    have h4 : (0 : ℝ) ≤ b := by rw [h2]; positivity
    rintro rfl
    simp at ht
    linarith
  have hb0 := bst_nonneg hσ
  have hq0 : qr + ql ≠ 0 := by positivity
  have qL : ∀ s e q, (leafL q s e).q = q := fun _ _ _ => rfl
  have qR : ∀ s e q, (leafR q s e).q = q := fun _ _ _ => rfl
  have hsel : (⟨[top q w N f, leafL (XF.fin ql) xs g, leafR (XF.fin qr) ys g'], [1, 2]⟩ : Tree ℝ 1).select rs 3 0 [0] 0 =
      .ok ([0, 0], if rs 0 < ql / (qr + ql) then 1 else 2) := by
    unfold Tree.select
    rw [if_neg (by simp)]
    have hl : (top q w N f).left = some 1 := rfl
    have hr : (top q w N f).right = some 2 := rfl
    simp only [List.getElem?_cons_zero, List.getElem?_cons_succ, hl, hr, qL, qR, XF.fin_add, XF.fin_div_ne _ _ hq0, XF.ltb,
      decide_eq_true_eq]
    unfold Tree.select
    rw [if_pos (by split <;> simp)]
    rfl
  unfold iterate
  rw [show (⟨[top q w N f, leafL (XF.fin ql) xs g, leafR (XF.fin qr) ys g'], [1, 2]⟩ : Tree ℝ 1).nodes.length = 3 from rfl, hsel]
  by_cases hlt : rs 0 < ql / (qr + ql)
  · set x : Pt ℝ 1 := ![-1 + u 0] with hxd
    have hx0 : x 0 = -1 + u 0 := rfl
    have hs : (leafL (XF.fin ql) xs g).sampler.sample1 u = x := by
      unfold leafL
      rw [fin1_eq u, nd_sample, hxd]
      norm_num
    have hp := leafL_prob (XF.fin ql) xs g (x := x) (by rw [hx0]; linarith [hu.1]) (by rw [hx0]; linarith [hu.2.1])
    have htw : twoLevel x = 1 := if_pos (by rw [hx0]; linarith [hu.2.1])
    have hne : xs ++ [x] ≠ [] := by simp
    simp only [hlt, if_true, List.getElem?_cons_zero, List.getElem?_cons_succ, hs, hp, htw, XF.fin_div_ne _ _ one_ne_zero, div_one,
      leafL_add, List.set_cons_succ, List.set_cons_zero]
    rw [if_neg (by norm_num [XF.ltb])]
    rw [cut_total ht0 _ _ _ _ _ _ _ _ _ _ hne hy, leafL_mean _ _ _ hne]
    split
    · rename_i hyes
      exfalso
      have h3 := hyes.2
      have e1 : (leafL (XF.fin ql) (xs ++ [x]) (XF.fin ((xs.length + 1 : ℕ) : ℝ))).ess = XF.fin ((xs.length + 1 : ℕ) : ℝ) := rfl
      have e2 : (leafL (XF.fin ql) (xs ++ [x]) (XF.fin ((xs.length + 1 : ℕ) : ℝ))).N = xs.length + 1 := by
        show (xs ++ [x]).length = _
        simp
      rw [e1, e2] at h3
      simp only [XF.ltb, decide_eq_true_eq] at h3
      have h4 : (0 : ℝ) < ((xs.length + 1 : ℕ) : ℝ) := by positivity
      nlinarith
    · refine ⟨_, _, rfl, fun _ => ?_, fun h => absurd trivial h⟩
      have hmass : (XF.fin 1 + realBoost σ t (leafL (XF.fin ql) (xs ++ [x]) (XF.fin ((xs.length + 1 : ℕ) : ℝ))).N) /
          XF.fin (1 + bst σ t (xs ++ [x]).length + (3 + bst σ t ys.length)) = XF.fin (massL σ t (a + 1) b) := by
        have e2 : (leafL (XF.fin ql) (xs ++ [x]) (XF.fin ((xs.length + 1 : ℕ) : ℝ))).N = (xs ++ [x]).length := rfl
        have e3 : ((xs ++ [x]).length : ℝ) = a + 1 := by rw [h1]; simp
        rw [e2, realBoost, if_neg ht0, XF.fin_add, XF.fin_div_ne, e3, ← h2]
        · rfl
        · have := hb0 t (xs ++ [x]).length
          have := hb0 t ys.length
          positivity
      rw [hmass]
      refine ⟨_, w, N, f, xs ++ [x], ys, XF.fin ((xs.length + 1 : ℕ) : ℝ), g', rfl, ?_, hys, ?_, h2, hne, hy⟩
      · intro z hz
        rcases List.mem_append.1 hz with hz | hz
        · exact hxs z hz
        · rw [List.mem_singleton.1 hz, hx0]; linarith [hu.2.1]
      · rw [h1]; simp
  · set x : Pt ℝ 1 := ![u 0] with hxd
    have hx0 : x 0 = u 0 := rfl
    have hs : (leafR (XF.fin qr) ys g').sampler.sample1 u = x := by
      unfold leafR
      rw [fin1_eq u, nd_sample, hxd]
      norm_num
    have hp := leafR_prob (XF.fin qr) ys g' (x := x) (by rw [hx0]; linarith [hu.1]) (by rw [hx0]; linarith [hu.2.1])
    have htw : twoLevel x = 3 := if_neg (by rw [hx0]; linarith [hu.1])
    have hne : ys ++ [x] ≠ [] := by simp
    simp only [hlt, if_false, List.getElem?_cons_zero, List.getElem?_cons_succ, hs, hp, htw, XF.fin_div_ne _ _ one_ne_zero, div_one,
      leafR_add, List.set_cons_succ, List.set_cons_zero]
    rw [if_neg (by norm_num [XF.ltb])]
    rw [cut_total ht0 _ _ _ _ _ _ _ _ _ _ hx hne, leafR_mean _ _ _ hne]
    split
    · rename_i hyes
      exfalso
      have h3 := hyes.2
      have e1 : (leafR (XF.fin qr) (ys ++ [x]) (XF.fin ((ys.length + 1 : ℕ) : ℝ))).ess = XF.fin ((ys.length + 1 : ℕ) : ℝ) := rfl
      have e2 : (leafR (XF.fin qr) (ys ++ [x]) (XF.fin ((ys.length + 1 : ℕ) : ℝ))).N = ys.length + 1 := by
        show (ys ++ [x]).length = _
        simp
      rw [e1, e2] at h3
      simp only [XF.ltb, decide_eq_true_eq] at h3
      have h4 : (0 : ℝ) < ((ys.length + 1 : ℕ) : ℝ) := by positivity
      nlinarith
    · refine ⟨_, _, rfl, fun h => h.elim, fun _ => ?_⟩
      have hmass : (XF.fin 3 + realBoost σ t (leafR (XF.fin qr) (ys ++ [x]) (XF.fin ((ys.length + 1 : ℕ) : ℝ))).N) /
          XF.fin (1 + bst σ t xs.length + (3 + bst σ t (ys ++ [x]).length)) = XF.fin (massR σ t a (b + 1)) := by
        have e2 : (leafR (XF.fin qr) (ys ++ [x]) (XF.fin ((ys.length + 1 : ℕ) : ℝ))).N = (ys ++ [x]).length := rfl
        have e3 : ((ys ++ [x]).length : ℝ) = b + 1 := by rw [h2]; simp
        rw [e2, realBoost, if_neg ht0, XF.fin_add, XF.fin_div_ne, e3, ← h1]
        · rfl
        · have := hb0 t (ys ++ [x]).length
          have := hb0 t xs.length
          positivity
      rw [hmass]
      refine ⟨_, w, N, f, xs, ys ++ [x], g, XF.fin ((ys.length + 1 : ℕ) : ℝ), rfl, hxs, ?_, h1, ?_, hx, hne⟩
      · intro z hz
        rcases List.mem_append.1 hz with hz | hz
        · exact hys z hz
        · rw [List.mem_singleton.1 hz, hx0]; linarith [hu.1]
      · rw [h2]; simp

/-! ### All iterations -/

open Adaptive (st)

/-- The tree a call works with is as described by the chain. -/
def Follows (T : Tree ℝ 1) (s : Chain) : Prop :=
  (s.cut → IsCut T s.ql s.qr s.nl s.nr) ∧ (¬ s.cut → IsWhole T s.nl s.nr ∧ s.ql = 1 / 2 ∧ s.qr = 1 / 2)

theorem run_follows {σ e : ℝ} {m : ℕ} (hσ : 0 ≤ σ) (he : e < 1) (ω : ℕ → Draws 1) (hω : ∀ k, Proper (ω k).2.1) (n : ℕ) :
    ∃ S, iterations ⟨realBoost σ, m, e⟩ (fun x => .fin (twoLevel x)) 0 ((List.range n).map (outcomes ω)) (reset ![-1] ![1]) = .ok S ∧
      Follows S.T (st (chainStep σ m e) chain0 ω n) := by
  classical
  induction n with
  | zero =>
    refine ⟨reset ![-1] ![1], rfl, fun h => absurd h not_false, fun _ => ⟨?_, rfl, rfl⟩⟩
    refine ⟨XF.fin 0, [], XF.fin 0, ?_, by simp, by simp [st, chain0, lefts], by simp [st, chain0, rights]⟩
    show Tree.init _ _ = _
    rw [init_eq]
    rfl
  | succ n ih =>
    obtain ⟨S, h1, h2⟩ := ih
    set s := st (chainStep σ m e) chain0 ω n with hs
    have hstep : st (chainStep σ m e) chain0 ω (n + 1) = chainStep σ m e s (ω n) := rfl
    have htot : s.nl + s.nr = n := X_total (σ := σ) (m := m) (e := e) ω n
    have hq := X_q_pos (σ := σ) (m := m) (e := e) ω hσ n
    rw [← hs] at hq
    have key : ∃ T k, iterate ⟨realBoost σ, m, e⟩ (fun x => .fin (twoLevel x)) n (outcomes ω n) S.T = .ok (T, k) ∧
        Follows T (chainStep σ m e s (ω n)) := by
      by_cases hc : s.cut
      · obtain ⟨T, k, g1, g2, g3⟩ := cut_step (m := m) hσ he hq.1 hq.2 (h2.1 hc) htot (ω n).1 (hω n) (ω n).2.2
        refine ⟨T, k, g1, fun _ => ?_, fun h => absurd (Or.inl hc) h⟩
        by_cases hl : (ω n).1 0 < s.ql / (s.qr + s.ql)
        · have hg : goesLeft s (ω n) := Or.inl ⟨hc, hl⟩
          have := g2 hl
          rw [← htot] at this
          simpa [chainStep, hg, hc, Chain.ql, Chain.qr, Chain.nl, Chain.nr] using this
        · have hg : ¬ goesLeft s (ω n) := by
            rintro (⟨-, h⟩ | ⟨h, -⟩)
            · exact hl h
            · exact h hc
          have := g3 hl
          rw [← htot] at this
          simpa [chainStep, hg, hc, Chain.ql, Chain.qr, Chain.nl, Chain.nr] using this
      · obtain ⟨hw, q1, q2⟩ := h2.2 hc
        have hg : goesLeft s (ω n) ↔ (ω n).2.1 0 < 1 / 2 := by
          unfold goesLeft
          simp [hc]
        obtain ⟨T, k, g1, g2, g3⟩ := whole_step (m := m) hσ he hw htot (ω n).1 (hω n) (ω n).2.2
          (if goesLeft s (ω n) then s.nl + 1 else s.nl) (if goesLeft s (ω n) then s.nr else s.nr + 1)
          (by simp only [hg]) (by simp only [hg])
        have e1 : (chainStep σ m e s (ω n)).ql = 1 / 2 := by
          rw [← q1]; exact if_neg fun h => hc h.1
        have e2 : (chainStep σ m e s (ω n)).qr = 1 / 2 := by
          rw [← q2]; exact if_neg fun h => hc h.1
        refine ⟨T, k, g1, fun h => ?_, fun h => ⟨?_, e1, e2⟩⟩
        · rw [e1, e2]
          exact g3 (h.resolve_left hc)
        · exact g2 fun h' => h (Or.inr h')
    obtain ⟨T, k, g1, g2⟩ := key
    obtain ⟨S2, f1, f2⟩ := iterations_snoc (outcomes ω n) _ 0 _ S T k h1 (by simpa using g1)
    refine ⟨S2, ?_, ?_⟩
    · rw [List.range_succ, List.map_append, List.map_singleton]
      exact f1
    · rw [hstep, f2]
      exact g2

theorem call_of {d : ℕ} {c : Cfg ℝ} {target : Pt ℝ d → XF ℝ} {n : ℕ} {its : ℕ → Iter ℝ d} {lo hi : Pt ℝ d} {S1 : Sampler ℝ d}
    (h : iterations c target 0 ((List.range n).map its) (reset lo hi) = .ok S1) :
    ∃ S', importanceSample c target n its (reset lo hi) = .ok S' ∧ S'.T = S1.T ∧
      S'.samples = (S1.T.leafNodes.flatMap fun n => n.samples.getD []) ∧ S'.weights = S1.T.leafNodes.flatMap Node.weights := by
  unfold importanceSample
  have : (reset lo hi : Sampler ℝ d).samples.length = 0 := rfl
  rw [this, Nat.sub_zero, h]
  simp only [updateModel, setWeights, List.length_map, if_true, Except.map, Except.ok.injEq, exists_eq_left']
  exact ⟨rfl, rfl, rfl⟩

/-- 1 on the left half, 0 on the right half. -/
noncomputable def onLeft (x : Pt ℝ 1) : ℝ := if x 0 < 0 then 1 else 0

theorem zipWith_left (xs : List (Pt ℝ 1)) (h : ∀ x ∈ xs, x 0 < 0) :
    (List.zipWith (fun x w => onLeft x * w) xs (List.replicate xs.length (1 : ℝ))).sum = xs.length := by
  induction xs with
  | nil => simp
  | cons x xs ih =>
    rw [List.length_cons, List.replicate_succ, List.zipWith_cons_cons, List.sum_cons,
      ih fun z hz => h z (List.mem_cons_of_mem _ hz), onLeft, if_pos (h x List.mem_cons_self)]
    push_cast
    ring

theorem zipWith_right (ys : List (Pt ℝ 1)) (h : ∀ x ∈ ys, ¬ x 0 < 0) :
    (List.zipWith (fun x w => onLeft x * w) ys (List.replicate ys.length (3 : ℝ))).sum = 0 := by
  induction ys with
  | nil => simp
  | cons x xs ih =>
    rw [List.length_cons, List.replicate_succ, List.zipWith_cons_cons, List.sum_cons,
      ih fun z hz => h z (List.mem_cons_of_mem _ hz), onLeft, if_neg (h x List.mem_cons_self)]
    simp

theorem cut_mean {S : Sampler ℝ 1} {T : Tree ℝ 1} {ql qr a b : ℝ} (hT : IsCut T ql qr a b)
    (h1 : S.samples = (T.leafNodes.flatMap fun n => n.samples.getD [])) (h2 : S.weights = T.leafNodes.flatMap Node.weights)
    {ws : List ℝ} (hw : S.weights = ws.map XF.fin) : weightedMean onLeft S.samples ws = a / (a + 3 * b) := by
  obtain ⟨q, w, N, f, xs, ys, g, g', rfl, hxs, hys, ha, hb, hx, hy⟩ := hT
  have e1 : S.samples = xs ++ ys := by
    rw [h1]
    show (xs ++ (ys ++ [])) = _
    simp
  have e2 : ws = List.replicate xs.length 1 ++ List.replicate ys.length 3 := by
    have : ws.map XF.fin = (List.replicate xs.length (1 : ℝ) ++ List.replicate ys.length 3).map XF.fin := by
      rw [← hw, h2]
      show List.replicate xs.length (XF.fin (1 : ℝ)) ++ (List.replicate ys.length (XF.fin (3 : ℝ)) ++ []) = _
      simp
    exact (List.map_injective_iff.2 fun a b h => by simpa using h) this
  unfold weightedMean
  rw [e1, e2, List.zipWith_append (by simp), List.sum_append, zipWith_left xs hxs, zipWith_right ys hys, List.sum_append,
    List.sum_replicate, List.sum_replicate, ← ha, ha, hb]
  simp only [nsmul_eq_mul]
  ring

/-- The weights of the calls are finite and the averages are as told by the chain. -/
theorem run_calls {σ e : ℝ} {m : ℕ} (hσ : 0 ≤ σ) (he : e < 1) (ω : ℕ → Draws 1) (hω : ∀ k, Proper (ω k).2.1) (n : ℕ) :
    ∃ S, importanceSample ⟨realBoost σ, m, e⟩ (fun x => .fin (twoLevel x)) n (outcomes ω) (reset ![-1] ![1]) = .ok S ∧
      ((st (chainStep σ m e) chain0 ω n).cut → ∀ ws : List ℝ, S.weights = ws.map XF.fin → weightedMean onLeft S.samples ws =
        (st (chainStep σ m e) chain0 ω n).nl / ((st (chainStep σ m e) chain0 ω n).nl + 3 * (st (chainStep σ m e) chain0 ω n).nr)) := by
  obtain ⟨S1, h1, h2⟩ := run_follows (m := m) hσ he ω hω n
  obtain ⟨S, g1, -, g3, g4⟩ := call_of h1
  exact ⟨S, g1, fun hc ws hw => cut_mean (h2.1 hc) g3 g4 hw⟩

theorem ae_proper : ∀ᵐ ω ∂(drawStream 1), ∀ k, Proper (ω k).2.1 := by
  rw [ae_all_iff]
  intro k
  have h1 : ∀ᵐ u ∂(uniformDraw 1), Proper u := by
    unfold uniformDraw
    have hm := measurableSet_unitCube (d := 1)
    have h0 : ∀ c : ℝ, ∀ᵐ u : Pt ℝ 1, u 0 ≠ c := by
      intro c
      rw [ae_iff]
      have : {a : Pt ℝ 1 | ¬ a 0 ≠ c} = Set.univ.pi fun _ => {c} := by
        ext u
        simp
      rw [this, volume_pi_pi]
      simp
    rw [ae_restrict_iff' hm]
    filter_upwards [h0 0, h0 (1 / 2)] with u hu1 hu2 hu
    have := hu 0 (Set.mem_univ _)
    exact ⟨lt_of_le_of_ne this.1 (Ne.symm hu1), this.2, hu2⟩
  have e1 : (drawLaw 1).map (fun ξ => ξ.2.1) = uniformDraw 1 := by
    have : (fun ξ : Draws 1 => ξ.2.1) = Prod.fst ∘ Prod.snd := rfl
    rw [this, ← Measure.map_map measurable_fst measurable_snd]
    unfold drawLaw
    rw [Measure.map_snd_prod]
    simp
  have h2 : ∀ᵐ ξ ∂(drawLaw 1), Proper ξ.2.1 := by
    rw [← e1] at h1
    exact ae_of_ae_map (by fun_prop) h1
  have h3 := (measurePreserving_eval_infinitePi (fun _ : ℕ => drawLaw 1) k).quasiMeasurePreserving.ae h2
  exact h3

end HiD
end Verif
