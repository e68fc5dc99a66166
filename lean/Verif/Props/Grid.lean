import Verif.Model.Grid
import Mathlib.Algebra.BigOperators.Fin
import Mathlib.Data.List.OfFn
import Mathlib.Data.List.GetD
import Mathlib.Data.Rat.Floor
import Mathlib.Tactic.Linarith
import Mathlib.Tactic.FieldSimp
import Mathlib.Tactic.Ring
import Mathlib.Tactic.FinCases

/-!
# Property C68: the grid
-/

set_option linter.unusedSectionVars false
set_option autoImplicit false

namespace Verif

/-! ### Flattening -/

section Ravel
variable {K : Type*}

/-- Valid multi-indices of a shape. -/
abbrev Valid (idx s : List ℕ) : Prop := List.Forall₂ (· < ·) idx s

theorem mem_ravelAux (s : List ℕ) : ∀ (f : List ℕ → K) (x : K), x ∈ ND.ravelAux s f ↔ ∃ idx, Valid idx s ∧ f idx = x := by
  induction s with
  | nil => intro f x; simp [ND.ravelAux, Valid, eq_comm]
  | cons n s ih =>
    intro f x
    simp only [ND.ravelAux, List.mem_flatMap, List.mem_range, ih]
    constructor
    · rintro ⟨i, hi, idx, hv, e⟩; exact ⟨i :: idx, .cons hi hv, e⟩
    · rintro ⟨idx, hv, e⟩
      cases hv with
      | cons hi hv => exact ⟨_, hi, _, hv, e⟩

theorem length_ravelAux (s : List ℕ) : ∀ f : List ℕ → K, (ND.ravelAux s f).length = s.prod := by
  induction s with
  | nil => intro f; rfl
  | cons n s ih => intro f; simp [ND.ravelAux, ih, List.length_flatMap]

theorem nodup_ravelAux (s : List ℕ) : ∀ f : List ℕ → K,
    (∀ a b, Valid a s → Valid b s → f a = f b → a = b) → (ND.ravelAux s f).Nodup := by
  induction s with
  | nil => intro f _; simp [ND.ravelAux]
  | cons n s ih =>
    intro f hf
    rw [ND.ravelAux, List.nodup_flatMap]
    refine ⟨fun i hi => ih _ fun a b ha hb e => ?_, ?_⟩
    · have := hf (i :: a) (i :: b) (.cons (List.mem_range.1 hi) ha) (.cons (List.mem_range.1 hi) hb) e
      exact (List.cons.inj this).2
    · refine List.nodup_range.imp_of_mem ?_
      intro i j hi hj hij
      simp only [Function.onFun, List.disjoint_left, mem_ravelAux]
      rintro x ⟨a, ha, rfl⟩ ⟨b, hb, e⟩
      have := hf (j :: b) (i :: a) (.cons (List.mem_range.1 hj) hb) (.cons (List.mem_range.1 hi) ha) e
      exact hij (List.cons.inj this).1.symm

theorem flatten_flatMap' {α β : Type*} (l : List α) (g : α → List (List β)) :
    (l.flatMap g).flatten = l.flatMap fun i => (g i).flatten := by
  induction l with
  | nil => rfl
  | cons a l ih => simp [List.flatMap_cons, ih]

theorem ravelAux_append (s t : List ℕ) : ∀ f : List ℕ → K,
    ND.ravelAux (s ++ t) f = (ND.ravelAux s fun i => ND.ravelAux t fun j => f (i ++ j)).flatten := by
  induction s with
  | nil => intro f; simp [ND.ravelAux]
  | cons n s ih =>
    intro f
    simp only [List.cons_append, ND.ravelAux, ih]
    exact (flatten_flatMap' _ _).symm

theorem ravelAux_map {L : Type*} (g : K → L) (s : List ℕ) : ∀ f : List ℕ → K,
    (ND.ravelAux s f).map g = ND.ravelAux s fun i => g (f i) := by
  induction s with
  | nil => intro f; rfl
  | cons n s ih => intro f; simp [ND.ravelAux, List.map_flatMap, ih]

theorem ravelAux_congr (s : List ℕ) : ∀ f g : List ℕ → K, (∀ idx, Valid idx s → f idx = g idx) →
    ND.ravelAux s f = ND.ravelAux s g := by
  induction s with
  | nil => intro f g h; simp [ND.ravelAux, h [] .nil]
  | cons n s ih =>
    intro f g h
    simp only [ND.ravelAux]
    apply List.flatMap_congr
    intro i hi
    exact ih _ _ fun idx hv => h (i :: idx) (.cons (List.mem_range.1 hi) hv)

/-- Values of a two dimensional array in C order. -/
theorem ravelAux_two (n m : ℕ) (f : List ℕ → K) (i j : ℕ) (hi : i < n) (hj : j < m) :
    (ND.ravelAux [n, m] f)[i * m + j]? = some (f [i, j]) := by
  have : ND.ravelAux [n, m] f = (List.range n).flatMap fun i => (List.range m).map fun j => f [i, j] := by
    simp only [ND.ravelAux, List.flatMap_singleton']
    apply List.flatMap_congr
    intro i _
    rw [List.map_eq_flatMap]
  rw [this]
  clear this
  revert f
  induction n generalizing i with
  | zero => omega
  | succ n ih =>
    intro f
    rw [List.range_succ_eq_map, List.flatMap_cons]
    cases i with
    | zero => rw [List.getElem?_append_left (by simp; omega)]; simp [hj]
    | succ i =>
      rw [List.getElem?_append_right (by simp; nlinarith)]
      have := ih i (by omega) (fun idx => f (match idx with
        | a :: r => (a + 1) :: r
        | [] => []))
      simp only [List.length_map, List.length_range, List.flatMap_map] at this ⊢
      rw [show (i + 1) * m + j - m = i * m + j by rw [Nat.add_mul]; omega]
      exact this

end Ravel

/-! ### Rows of the grid -/

section Rows
variable {K : Type*} [Field K] [LinearOrder K]

theorem swap01_swap01 {α : Type*} (l : List α) : swap01 (swap01 l) = l := by
  rcases l with _ | ⟨a, _ | ⟨b, r⟩⟩ <;> rfl

theorem valid_swap01 (a b : List ℕ) (h : Valid a b) : Valid (swap01 a) (swap01 b) := by
  cases h with
  | nil => exact .nil
  | cons h1 h =>
    cases h with
    | nil => exact .cons h1 .nil
    | cons h2 h => exact .cons h2 (.cons h1 h)

theorem valid_swap01_iff (a b : List ℕ) : Valid a (swap01 b) ↔ Valid (swap01 a) b := by
  constructor
  · intro h; have := valid_swap01 _ _ h; rwa [swap01_swap01] at this
  · intro h; have := valid_swap01 _ _ h; rwa [swap01_swap01] at this

/-- Entry of a flattened list of rows of equal length. -/
theorem flatten_getD (d : ℕ) (rows : List (List K)) (h : ∀ r ∈ rows, r.length = d) (i k : ℕ) (hk : k < d) :
    rows.flatten.getD (i * d + k) 0 = (rows.getD i []).getD k 0 := by
  induction rows generalizing i with
  | nil => simp
  | cons r rows ih =>
    have hr : r.length = d := h r (by simp)
    rw [List.flatten_cons]
    cases i with
    | zero => rw [List.getD_append _ _ _ _ (by omega)]; simp
    | succ i =>
      rw [List.getD_append_right _ _ _ _ (by rw [hr, Nat.add_mul]; omega)]
      rw [show (i + 1) * d + k - r.length = i * d + k by rw [hr, Nat.add_mul]; omega]
      rw [ih (fun r' hr' => h r' (by simp [hr'])) i]
      simp

/-- The rows of the grid are the values of the coordinate function in C order of the transposed shape. -/
theorem rows_eq {d : ℕ} (hd : 0 < d) (dims : Fin d → List K) :
    reshapeRows d (meshgrid (List.ofFn dims)).transpose.ravel =
      ND.ravelAux (swap01 ((List.ofFn dims).map List.length)).reverse
        fun idx => fun k : Fin d => (dims k).getD ((swap01 idx.reverse).getD k 0) 0 := by
  set s := (swap01 ((List.ofFn dims).map List.length)).reverse with hs
  have hflat : (meshgrid (List.ofFn dims)).transpose.ravel =
      (ND.ravelAux s fun idx => (List.range d).map fun k =>
        ((List.ofFn dims).getD k []).getD ((swap01 idx.reverse).getD k 0) (0 : K)).flatten := by
    unfold meshgrid ND.transpose ND.ravel
    simp only [List.reverse_cons, List.length_ofFn, ← hs]
    rw [ravelAux_append]
    congr 1
    apply ravelAux_congr
    intro idx _
    simp only [ND.ravelAux, List.reverse_append, List.reverse_cons, List.reverse_nil, List.nil_append,
      List.singleton_append]
    rw [← List.map_eq_flatMap]
  rw [hflat]
  set rows := ND.ravelAux s fun idx => (List.range d).map fun k =>
        ((List.ofFn dims).getD k []).getD ((swap01 idx.reverse).getD k 0) (0 : K) with hrows
  have hlen : ∀ r ∈ rows, r.length = d := by
    intro r hr
    rw [hrows, mem_ravelAux] at hr
    obtain ⟨idx, _, rfl⟩ := hr
    simp
  have htot : rows.flatten.length / d = rows.length := by
    rw [List.length_flatten, List.map_congr_left (g := fun _ => d) (fun r hr => hlen r hr)]
    simp [hd]
  unfold reshapeRows
  rw [htot]
  have hg : (ND.ravelAux s fun idx => fun k : Fin d => (dims k).getD ((swap01 idx.reverse).getD k 0) 0) =
      rows.map fun r => fun k : Fin d => r.getD k 0 := by
    rw [hrows, ravelAux_map]
    apply ravelAux_congr
    intro idx _
    funext k
    simp [List.getD_eq_getElem?_getD]
  rw [hg]
  apply List.ext_getElem
  · simp
  · intro i h1 h2
    simp only [List.getElem_map, List.getElem_range]
    funext k
    rw [flatten_getD d rows hlen i k k.isLt]
    congr 1
    rw [List.getD_eq_getElem?_getD, List.getElem?_eq_getElem (by simpa using h2)]
    rfl

theorem mem_grid {d : ℕ} (hd : 0 < d) (dims : Fin d → List K) (x : Fin d → K) :
    x ∈ reshapeRows d (meshgrid (List.ofFn dims)).transpose.ravel ↔ ∀ k, x k ∈ dims k := by
  rw [rows_eq hd, mem_ravelAux]
  constructor
  · rintro ⟨idx, hv, rfl⟩ k
    have h1 : Valid (swap01 idx.reverse) ((List.ofFn dims).map List.length) := by
      rw [← valid_swap01_iff]
      have := List.rel_reverse hv
      simpa using this
    have hl := h1.length_eq
    simp only [List.length_map, List.length_ofFn] at hl
    have hk : (swap01 idx.reverse).getD k 0 < (dims k).length := by
      rw [List.getD_eq_getElem _ _ (by rw [hl]; exact k.isLt)]
      have := (List.forall₂_iff_get.1 h1).2 k (by rw [hl]; exact k.isLt) (by simp)
      simpa using this
    show (dims k).getD ((swap01 idx.reverse).getD k 0) 0 ∈ dims k
    rw [List.getD_eq_getElem _ _ hk]
    exact List.getElem_mem hk
  · intro h
    choose j hj using fun k => List.getElem_of_mem (h k)
    refine ⟨(swap01 (List.ofFn j)).reverse, ?_, ?_⟩
    · apply List.rel_reverse
      refine (valid_swap01_iff _ _).2 ?_
      rw [swap01_swap01]
      refine List.forall₂_iff_get.2 ?_
      refine ⟨by simp, fun i h1 h2 => ?_⟩
      simp only [List.get_eq_getElem, List.getElem_ofFn, List.getElem_map]
      exact (hj _).1
    · funext k
      rw [List.reverse_reverse, swap01_swap01]
      have e : (List.ofFn j).getD k 0 = j k := by rw [List.getD_eq_getElem _ _ (by simp), List.getElem_ofFn]
      rw [e, List.getD_eq_getElem _ _ (hj k).1]
      exact (hj k).2

theorem nodup_grid {d : ℕ} (hd : 0 < d) (dims : Fin d → List K) (hn : ∀ k, (dims k).Nodup) :
    (reshapeRows d (meshgrid (List.ofFn dims)).transpose.ravel).Nodup := by
  rw [rows_eq hd]
  apply nodup_ravelAux
  have hval : ∀ idx, Valid idx (swap01 ((List.ofFn dims).map List.length)).reverse →
      Valid (swap01 idx.reverse) ((List.ofFn dims).map List.length) := by
    intro idx hv
    rw [← valid_swap01_iff]
    have := List.rel_reverse hv
    simpa using this
  intro a b ha hb e
  have h1 := hval a ha
  have h2 := hval b hb
  have l1 := h1.length_eq
  have l2 := h2.length_eq
  simp only [List.length_map, List.length_ofFn] at l1 l2
  have : swap01 a.reverse = swap01 b.reverse := by
    apply List.ext_getElem (by rw [l1, l2])
    intro i hi1 hi2
    have hid : i < d := by rw [← l1]; exact hi1
    have e' := congrFun e ⟨i, hid⟩
    simp only at e'
    have b1 := (List.forall₂_iff_get.1 h1).2 i hi1 (by simpa using hid)
    have b2 := (List.forall₂_iff_get.1 h2).2 i hi2 (by simpa using hid)
    simp only [List.get_eq_getElem, List.getElem_map, List.getElem_ofFn] at b1 b2
    rw [List.getD_eq_getElem _ _ hi1, List.getD_eq_getElem _ _ hi2, List.getD_eq_getElem _ _ b1,
      List.getD_eq_getElem _ _ b2] at e'
    exact (List.Nodup.getElem_inj_iff (hn ⟨i, hid⟩)).1 e'
  have h3 := congrArg swap01 this
  rw [swap01_swap01, swap01_swap01] at h3
  exact List.reverse_injective h3

theorem prod_swap01 (l : List ℕ) : (swap01 l).prod = l.prod := by
  rcases l with _ | ⟨a, _ | ⟨b, r⟩⟩
  · rfl
  · rfl
  · simp [swap01, Nat.mul_left_comm]

theorem length_grid {d : ℕ} (hd : 0 < d) (dims : Fin d → List K) :
    (reshapeRows d (meshgrid (List.ofFn dims)).transpose.ravel).length = ∏ k, (dims k).length := by
  rw [rows_eq hd, length_ravelAux, List.prod_reverse, prod_swap01, List.map_ofFn, List.prod_ofFn]
  rfl

end Rows

/-! ### C68 -/

section Grid
variable {K : Type*} [Field K] [LinearOrder K] [IsStrictOrderedRing K] [FloorRing K]

theorem axisCount_eq (lo hi res : K) (hr : 0 < res) : axisCount lo hi res = max 1 ⌊(hi - lo) / res⌋.toNat := by
  unfold axisCount pyInt
  by_cases h0 : 0 ≤ (hi - lo) / res
  · simp only [if_pos h0]
    by_cases h1 : ⌊(hi - lo) / res⌋ < 1
    · rw [if_pos h1]; omega
    · rw [if_neg h1]; omega
  · simp only [if_neg h0]
    have h1 : ⌈(hi - lo) / res⌉ ≤ 0 := Int.ceil_le.2 (by push_cast; linarith)
    have h2 : ⌊(hi - lo) / res⌋ < 0 := Int.floor_lt.2 (by push_cast; linarith)
    rw [if_pos (by omega)]
    omega

/-- The values of an axis with `n` points: the first is `lo`, the last (of several) is `hi`, and they are equally
spaced. -/
structure IsAxis (lo hi : K) (n : ℕ) (l : List K) : Prop where
  length : l.length = n
  first : l.head? = some lo
  last : 1 < n → l.getLast? = some hi
  spaced : ∃ step, ∀ i, i < n → l[i]? = some (lo + i * step)

theorem linspace_isAxis (lo hi : K) (n : ℕ) (hn : 0 < n) : IsAxis lo hi n (linspace lo hi n) := by
  refine ⟨by simp [linspace], ?_, ?_, ?_⟩
  · obtain ⟨m, rfl⟩ : ∃ m, n = m + 1 := ⟨n - 1, by omega⟩
    simp [linspace, List.range_succ_eq_map]
  · intro h1
    obtain ⟨m, rfl⟩ : ∃ m, n = m + 1 := ⟨n - 1, by omega⟩
    have hm : (m : K) ≠ 0 := by exact_mod_cast (by omega : m ≠ 0)
    simp only [linspace, List.range_succ, List.map_append, List.map_cons, List.map_nil, List.getLast?_append]
    simp only [List.getLast?_singleton, Option.some_or]
    rw [if_neg (by omega)]
    push_cast
    rw [add_sub_cancel_right, mul_div_cancel₀ _ hm]
    simp
  · by_cases h : n = 1
    · subst h
      refine ⟨0, fun i hi => ?_⟩
      obtain rfl : i = 0 := by omega
      simp [linspace]
    · refine ⟨(hi - lo) / ((n : K) - 1), fun i hi => ?_⟩
      simp [linspace, h, hi]

theorem linspace_nodup (lo hi : K) (n : ℕ) (h : n = 1 ∨ lo < hi) : (linspace lo hi n).Nodup := by
  unfold linspace
  by_cases h1 : n = 1
  · subst h1; simp
  · have hlt : lo < hi := h.resolve_left h1
    apply List.Nodup.map_on _ List.nodup_range
    intro a ha b hb e
    simp only [if_neg h1] at e
    have ha' := List.mem_range.1 ha
    have hb' := List.mem_range.1 hb
    have hn : (0 : K) < (n : K) - 1 := by
      have : (1 : K) < (n : K) := by exact_mod_cast (by omega : 1 < n)
      linarith
    have hs : 0 < (hi - lo) / ((n : K) - 1) := div_pos (by linarith) hn
    have : (a : K) = b := by
      have := add_left_cancel e
      exact mul_right_cancel₀ (ne_of_gt hs) this
    exact_mod_cast this

theorem linspace_bounds (lo hi : K) (n : ℕ) (h : lo ≤ hi) : ∀ x ∈ linspace lo hi n, lo ≤ x ∧ x ≤ hi := by
  intro x hx
  unfold linspace at hx
  rw [List.mem_map] at hx
  obtain ⟨i, hi', rfl⟩ := hx
  have hi' := List.mem_range.1 hi'
  by_cases h1 : n = 1
  · rw [if_pos h1]; exact ⟨le_refl _, h⟩
  · rw [if_neg h1]
    have hn : (0 : K) < (n : K) - 1 := by
      have : (1 : K) < (n : K) := by exact_mod_cast (by omega : 1 < n)
      linarith
    have hle : (i : K) ≤ (n : K) - 1 := by
      have : (i : K) + 1 ≤ (n : K) := by exact_mod_cast hi'
      linarith
    have hs : 0 ≤ (hi - lo) / ((n : K) - 1) := div_nonneg (by linarith) hn.le
    have h0 : (0 : K) ≤ (i : K) := Nat.cast_nonneg i
    refine ⟨by nlinarith [mul_nonneg h0 hs], ?_⟩
    have : (i : K) * ((hi - lo) / ((n : K) - 1)) ≤ ((n : K) - 1) * ((hi - lo) / ((n : K) - 1)) :=
      mul_le_mul_of_nonneg_right hle hs
    rw [mul_div_cancel₀ _ (ne_of_gt hn)] at this
    linarith

/-- **C68.** In every dimension, for every box and every positive resolution, `make_grid` succeeds; axis `i` has
`max(1, floor(range/resolution))` equally spaced points starting at `space_min`; the points returned are exactly those of
the product of the axes, each once, so that there are `prod(shape)` of them, and all lie inside the box. -/
theorem C68_make_grid {d : ℕ} (hd : 0 < d) (lo hi res : Fin d → K) (hb : ∀ i, lo i ≤ hi i) (hr : ∀ i, 0 < res i) :
    ∃ grid dims shape, makeGrid lo hi res = .ok (grid, dims, shape) ∧
      (∀ i, shape i = max 1 ⌊(hi i - lo i) / res i⌋.toNat) ∧
      (∀ i, IsAxis (lo i) (hi i) (shape i) (dims i)) ∧
      grid.length = ∏ i, shape i ∧
      grid.Nodup ∧
      (∀ x : Fin d → K, x ∈ grid ↔ ∀ i, x i ∈ dims i) ∧
      ∀ x ∈ grid, ∀ i, lo i ≤ x i ∧ x i ≤ hi i := by
  have hz : ¬ ∃ i, res i = 0 := by rintro ⟨i, hi'⟩; exact absurd hi' (ne_of_gt (hr i))
  refine ⟨_, _, _, by unfold makeGrid; rw [if_neg hz, if_neg (by omega)], ?_, ?_, ?_, ?_, ?_, ?_⟩
  · intro i; simp [linspace, axisCount_eq _ _ _ (hr i)]
  · intro i
    have : (linspace (lo i) (hi i) (axisCount (lo i) (hi i) (res i))).length = axisCount (lo i) (hi i) (res i) := by
      simp [linspace]
    rw [this]
    apply linspace_isAxis
    rw [axisCount_eq _ _ _ (hr i)]; omega
  · exact length_grid hd _
  · apply nodup_grid hd
    intro i
    apply linspace_nodup
    rcases lt_or_eq_of_le (hb i) with h | h
    · exact .inr h
    · left; rw [axisCount_eq _ _ _ (hr i), h]; simp
  · exact mem_grid hd _
  · intro x hx i
    exact linspace_bounds _ _ _ (hb i) _ ((mem_grid hd _ x).1 hx i)

/-- **C68, two dimensions.** Values computed for the points of the grid and reshaped by `shape` in C order (entry
`[i][j]` of the result is entry `i * shape[1] + j` of the flat list) have at `[i][j]` the value of the point
`(x_i, y_j)`. -/
theorem C68_reshape {V : Type*} (lo hi res : Fin 2 → K) (hr : ∀ i, 0 < res i) (f : (Fin 2 → K) → V)
    (grid : List (Fin 2 → K)) (dims : Fin 2 → List K) (shape : Fin 2 → ℕ)
    (h : makeGrid lo hi res = .ok (grid, dims, shape)) (i j : ℕ) (hi' : i < shape 0) (hj : j < shape 1) :
    ∃ x y, (dims 0)[i]? = some x ∧ (dims 1)[j]? = some y ∧ (grid.map f)[i * shape 1 + j]? = some (f ![x, y]) := by
  have hz : ¬ ∃ i, res i = 0 := by rintro ⟨i, hi'⟩; exact absurd hi' (ne_of_gt (hr i))
  unfold makeGrid at h
  rw [if_neg hz, if_neg (by omega)] at h
  simp only [Except.ok.injEq, Prod.mk.injEq] at h
  obtain ⟨h1, h2, h3⟩ := h
  rw [h2, rows_eq (by omega)] at h1
  have h3 : shape = fun i => (dims i).length := by rw [← h3, ← h2]
  subst h3
  refine ⟨(dims 0)[i], (dims 1)[j], List.getElem?_eq_getElem _, List.getElem?_eq_getElem _, ?_⟩
  rw [← h1, ravelAux_map]
  have hs : (swap01 ((List.ofFn dims).map List.length)).reverse = [(dims 0).length, (dims 1).length] := by
    simp [List.ofFn_succ, swap01]
  rw [hs, ravelAux_two _ _ _ i j hi' hj]
  congr 2
  funext k
  fin_cases k
  · simp [swap01, List.getElem?_eq_getElem (show i < (dims 0).length from hi')]
  · simp [swap01, List.getElem?_eq_getElem (show j < (dims 1).length from hj)]

/-- A grid of 3 by 2 points. -/
example : ∃ grid dims shape, makeGrid (d := 2) (K := ℚ) ![0, 10] ![1, 12] ![3/10, 1] = .ok (grid, dims, shape) ∧
    grid = [![0, 10], ![0, 12], ![1/2, 10], ![1/2, 12], ![1, 10], ![1, 12]] ∧ dims = ![[0, 1/2, 1], [10, 12]] ∧
    shape = ![3, 2] := by
  refine ⟨_, _, _, by unfold makeGrid; rw [if_neg (by decide +kernel), if_neg (by omega)], ?_, ?_, ?_⟩ <;>
    decide +kernel

/-- Outside two dimensions the layout is another one: here the flat position of `[i][j][k] = [1][0][0]` holds the value
of another point, so that reshaping by `shape` mislabels values in three dimensions. -/
theorem C68_three_dims : ∃ (grid : List (Fin 3 → ℚ)) (dims : Fin 3 → List ℚ) (shape : Fin 3 → ℕ),
    makeGrid ![0, 0, 0] ![2, 2, 2] ![1, 1, 1] = .ok (grid, dims, shape) ∧ shape = ![2, 2, 2] ∧
    grid[(1 * 2 + 0) * 2 + 0]? ≠ some ![(dims 0).getD 1 0, (dims 1).getD 0 0, (dims 2).getD 0 0] := by
  refine ⟨_, _, _, rfl, ?_, ?_⟩
  · decide +kernel
  · decide +kernel

end Grid
end Verif
