import Verif.Model.Contour
import Verif.Props.Grid

/-!
# C147: contour plots show the density they are labelled with
-/

set_option linter.unusedSectionVars false
set_option autoImplicit false

namespace Verif
namespace Contour

/-- The plot shows the function `g` on the box: equally spaced axes from `lo` to `hi`, the value of `g` at every point where
it is drawn, and fifteen levels between the smallest and the largest value. -/
structure Shows (c : Plot) (g : (Fin 2 → ℝ) → ℝ) (lo hi res : Fin 2 → ℝ) : Prop where
  xaxis : IsAxis (lo 0) (hi 0) (max 1 ⌊(hi 0 - lo 0) / res 0⌋.toNat) c.xs
  yaxis : IsAxis (lo 1) (hi 1) (max 1 ⌊(hi 1 - lo 1) / res 1⌋.toNat) c.ys
  rows : c.z.length = c.ys.length
  cols : ∀ row ∈ c.z, row.length = c.xs.length
  value : ∀ (i j : ℕ) (x y : ℝ), c.xs[i]? = some x → c.ys[j]? = some y → ∃ row, c.z[j]? = some row ∧ row[i]? = some (g ![x, y])
  count : c.levels.length = 15
  levels : ∀ l ∈ c.levels, (∃ row ∈ c.z, ∃ v ∈ row, v ≤ l) ∧ ∃ row ∈ c.z, ∃ v ∈ row, l < v

theorem arange_levels {a b : ℝ} (h : a < b) : arange a b ((b - a) / 15) = (List.range 15).map fun i : ℕ => a + i * ((b - a) / 15) := by
  unfold arange
  have : (b - a) / ((b - a) / 15) = 15 := by
    field_simp [sub_ne_zero.2 h.ne']
  rw [this]
  norm_num
  rfl

/-- The values of a plot, from values on the grid. -/
theorem plotGrid_spec {g : (Fin 2 → ℝ) → ℝ} {lo hi res : Fin 2 → ℝ} (hr : ∀ i, 0 < res i) {grid : List (Fin 2 → ℝ)}
    {dims : Fin 2 → List ℝ} {shape : Fin 2 → ℕ} (h : makeGrid lo hi res = .ok (grid, dims, shape)) :
    (∃ c, plotGrid dims (grid.map g) shape = .ok (some c) ∧ Shows c g lo hi res) ∨
    ((∀ x ∈ dims 0, ∀ y ∈ dims 1, ∀ x' ∈ dims 0, ∀ y' ∈ dims 1, g ![x, y] = g ![x', y']) ∧
      plotGrid dims (grid.map g) shape = .ok none) ∨
    ((hi 0 - lo 0 < 2 * res 0 ∨ hi 1 - lo 1 < 2 * res 1) ∧ plotGrid dims (grid.map g) shape = .error .type) := by
  have hval := fun i j hi' hj => C68_reshape lo hi res hr g grid dims shape h i j hi' hj
  have hz : ¬ ∃ i, res i = 0 := by rintro ⟨i, hi'⟩; exact absurd hi' (ne_of_gt (hr i))
  have h' := h
  unfold makeGrid at h'
  rw [if_neg hz, if_neg (by omega)] at h'
  simp only [Except.ok.injEq, Prod.mk.injEq] at h'
  obtain ⟨e1, e2, e3⟩ := h'
  have hshape : ∀ i, shape i = (dims i).length := fun i => by rw [← e3, ← e2]
  have hcount : ∀ i, shape i = max 1 ⌊(hi i - lo i) / res i⌋.toNat := fun i => by
    rw [← e3]; simp [linspace, axisCount_eq _ _ _ (hr i)]
  have haxis : ∀ i, IsAxis (lo i) (hi i) (shape i) (dims i) := fun i => by
    rw [hshape, ← e2]
    have : (linspace (lo i) (hi i) (axisCount (lo i) (hi i) (res i))).length = axisCount (lo i) (hi i) (res i) := by
      simp [linspace]
    rw [this]
    apply linspace_isAxis
    rw [axisCount_eq _ _ _ (hr i)]; omega
  have hlen : (grid.map g).length = shape 0 * shape 1 := by
    rw [List.length_map, ← e1, e2, length_grid (by omega), Fin.prod_univ_two, hshape, hshape]
  have hpos : ∀ i, 0 < shape i := fun i => by rw [hcount]; omega
  unfold plotGrid
  rw [if_neg (by rw [hlen]; simp)]
  dsimp only
  set z := (List.range (shape 1)).map fun j => (List.range (shape 0)).map fun i => (grid.map g).getD (i * shape 1 + j) 0 with hzdef
  have hentry : ∀ (i j : ℕ) (x y : ℝ), (dims 0)[i]? = some x → (dims 1)[j]? = some y →
      ∃ row, z[j]? = some row ∧ row[i]? = some (g ![x, y]) := by
    intro i j x y hx hy
    have hi' : i < shape 0 := by rw [hshape]; exact (List.getElem?_eq_some_iff.1 hx).1
    have hj' : j < shape 1 := by rw [hshape]; exact (List.getElem?_eq_some_iff.1 hy).1
    obtain ⟨x', y', q1, q2, q3⟩ := hval i j hi' hj'
    rw [hx] at q1
    rw [hy] at q2
    cases q1
    cases q2
    refine ⟨(List.range (shape 0)).map fun i => (grid.map g).getD (i * shape 1 + j) 0, ?_, ?_⟩
    · rw [hzdef, List.getElem?_map, List.getElem?_range hj']
      rfl
    · rw [List.getElem?_map, List.getElem?_range hi']
      simp only [Option.map_some, List.getD_eq_getElem?_getD, q3, Option.getD_some]
  have hmem : ∀ v, v ∈ z.flatten ↔ ∃ x ∈ dims 0, ∃ y ∈ dims 1, v = g ![x, y] := by
    intro v
    constructor
    · intro hv
      rw [List.mem_flatten] at hv
      obtain ⟨row, hrow, hv⟩ := hv
      rw [hzdef, List.mem_map] at hrow
      obtain ⟨j, hj, rfl⟩ := hrow
      obtain ⟨i, hi', rfl⟩ := List.mem_map.1 hv
      obtain ⟨x, y, q1, q2, q3⟩ := hval i j (List.mem_range.1 hi') (List.mem_range.1 hj)
      exact ⟨x, List.mem_of_getElem? q1, y, List.mem_of_getElem? q2, by rw [List.getD_eq_getElem?_getD, q3]; rfl⟩
    · rintro ⟨x, hx, y, hy, rfl⟩
      obtain ⟨i, hi'⟩ := List.mem_iff_getElem?.1 hx
      obtain ⟨j, hj⟩ := List.mem_iff_getElem?.1 hy
      obtain ⟨row, q1, q2⟩ := hentry i j x y hi' hj
      exact List.mem_flatten.2 ⟨row, List.mem_of_getElem? q1, List.mem_of_getElem? q2⟩
  have hne : z.flatten ≠ [] := by
    intro e
    have h0 : 0 < (dims 0).length := by rw [← hshape]; exact hpos 0
    have h1 : 0 < (dims 1).length := by rw [← hshape]; exact hpos 1
    have := (hmem (g ![(dims 0)[0], (dims 1)[0]])).2 ⟨_, List.getElem_mem h0, _, List.getElem_mem h1, rfl⟩
    rw [e] at this
    cases this
  obtain ⟨mn, hmn⟩ : ∃ mn, z.flatten.min? = some mn := by
    cases hm : z.flatten.min? with
    | none => exact absurd (List.min?_eq_none_iff.1 hm) hne
    | some m => exact ⟨m, rfl⟩
  obtain ⟨mx, hmx⟩ : ∃ mx, z.flatten.max? = some mx := by
    cases hm : z.flatten.max? with
    | none => exact absurd (List.max?_eq_none_iff.1 hm) hne
    | some m => exact ⟨m, rfl⟩
  rw [hmn, hmx]
  dsimp only
  obtain ⟨mn1, mn2⟩ := List.min?_eq_some_iff.1 hmn
  obtain ⟨mx1, mx2⟩ := List.max?_eq_some_iff.1 hmx
  by_cases hlt : mn < mx
  · rw [if_neg (not_not.2 hlt)]
    by_cases hs : shape 0 < 2 ∨ shape 1 < 2
    · rw [if_pos hs]
      refine .inr (.inr ⟨?_, rfl⟩)
      have key : ∀ i, shape i < 2 → hi i - lo i < 2 * res i := by
        intro i hi'
        rw [hcount] at hi'
        have : ⌊(hi i - lo i) / res i⌋ < 2 := by omega
        have := Int.floor_lt.1 this
        push_cast at this
        exact (div_lt_iff₀ (hr i)).1 this
      exact hs.imp (key 0) (key 1)
    · rw [if_neg hs]
      refine .inl ⟨_, rfl, ?_⟩
      refine ⟨?_, ?_, ?_, ?_, hentry, ?_, ?_⟩
      · rw [← hcount]; exact haxis 0
      · rw [← hcount]; exact haxis 1
      · dsimp only
        rw [hzdef, List.length_map, List.length_range, hshape]
      · intro row hrow
        dsimp only at hrow
        rw [hzdef, List.mem_map] at hrow
        obtain ⟨j, -, rfl⟩ := hrow
        dsimp only
        rw [List.length_map, List.length_range, hshape]
      · dsimp only
        rw [arange_levels hlt, List.length_map, List.length_range]
      · intro l hl
        dsimp only at hl ⊢
        rw [arange_levels hlt, List.mem_map] at hl
        obtain ⟨k, hk, rfl⟩ := hl
        have hk : (k : ℝ) ≤ 14 := by
          have := List.mem_range.1 hk
          exact_mod_cast (by omega : k ≤ 14)
        have hk0 : (0 : ℝ) ≤ k := Nat.cast_nonneg k
        rw [List.mem_flatten] at mn1 mx1
        obtain ⟨r1, hr1, hv1⟩ := mn1
        obtain ⟨r2, hr2, hv2⟩ := mx1
        refine ⟨⟨r1, hr1, mn, hv1, ?_⟩, ⟨r2, hr2, mx, hv2, ?_⟩⟩
        · have : 0 ≤ (k : ℝ) * ((mx - mn) / 15) := mul_nonneg hk0 (by linarith)
          linarith
        · have : (k : ℝ) * ((mx - mn) / 15) ≤ 14 * ((mx - mn) / 15) := mul_le_mul_of_nonneg_right hk (by linarith)
          linarith
  · rw [if_pos hlt]
    refine .inr (.inl ⟨?_, rfl⟩)
    intro x hx y hy x' hx' y' hy'
    have v1 := (hmem _).2 ⟨x, hx, y, hy, rfl⟩
    have v2 := (hmem _).2 ⟨x', hx', y', hy', rfl⟩
    have := mn2 _ v1
    have := mn2 _ v2
    have := mx2 _ v1
    have := mx2 _ v2
    push Not at hlt
    linarith

theorem makeGrid_ok (lo hi res : Fin 2 → ℝ) (hr : ∀ i, 0 < res i) : ∃ grid dims shape, makeGrid lo hi res = .ok (grid, dims, shape) := by
  have hz : ¬ ∃ i, res i = 0 := by rintro ⟨i, hi'⟩; exact absurd hi' (ne_of_gt (hr i))
  exact ⟨_, _, _, by unfold makeGrid; rw [if_neg hz, if_neg (by omega)]⟩

/-- The function does not have the same value at the four corners. -/
def Varies (g : (Fin 2 → ℝ) → ℝ) (lo hi : Fin 2 → ℝ) : Prop :=
  ¬ (g ![lo 0, lo 1] = g ![hi 0, lo 1] ∧ g ![lo 0, lo 1] = g ![lo 0, hi 1] ∧ g ![lo 0, lo 1] = g ![hi 0, hi 1])

theorem plot_shows {g : (Fin 2 → ℝ) → ℝ} {lo hi res : Fin 2 → ℝ} (hr : ∀ i, 0 < res i) (hb : ∀ i, 2 * res i ≤ hi i - lo i)
    (hv : Varies g lo hi) {grid : List (Fin 2 → ℝ)} {dims : Fin 2 → List ℝ} {shape : Fin 2 → ℕ}
    (h : makeGrid lo hi res = .ok (grid, dims, shape)) :
    ∃ c, plotGrid dims (grid.map g) shape = .ok (some c) ∧ Shows c g lo hi res := by
  rcases plotGrid_spec (g := g) hr h with h1 | ⟨h1, -⟩ | ⟨h1, -⟩
  · exact h1
  · exfalso
    obtain ⟨grid', dims', shape', e, hcount, haxis, -⟩ := C68_make_grid (d := 2) (by omega) lo hi res
      (fun i => by have := hb i; have := hr i; linarith) hr
    rw [h] at e
    cases e
    have key : ∀ i, lo i ∈ dims i ∧ hi i ∈ dims i := by
      intro i
      refine ⟨List.mem_of_mem_head? (haxis i).first, List.mem_of_getLast? ((haxis i).last ?_)⟩
      rw [hcount]
      have : (2 : ℤ) ≤ ⌊(hi i - lo i) / res i⌋ := by
        rw [Int.le_floor]
        push_cast
        rw [le_div_iff₀ (hr i)]
        exact hb i
      omega
    refine hv ⟨?_, ?_, ?_⟩
    · exact h1 _ (key 0).1 _ (key 1).1 _ (key 0).2 _ (key 1).1
    · exact h1 _ (key 0).1 _ (key 1).1 _ (key 0).1 _ (key 1).2
    · exact h1 _ (key 0).1 _ (key 1).1 _ (key 0).2 _ (key 1).2
  · exfalso
    rcases h1 with h1 | h1
    · linarith [hb 0]
    · linarith [hb 1]

/-- **C147_partial** A contour plot of a distribution or of the density of a sampler shows that density, times the scale: for
every function, box and resolution, the plot shows it at the right places, or there is no plot because the function is
constant on the grid or the box has less than two points in a direction; a box of two steps on which the function differs
between the corners is plotted. The target in the display of a run is drawn by its exponential: the values are in the order
of the densities. -/
theorem C147_partial (f : (Fin 2 → ℝ) → ℝ) (lo hi res : Fin 2 → ℝ) (scale : ℝ) (hr : ∀ i, 0 < res i) :
    (∀ c, plotPdf2d f lo hi res scale = .ok (some c) → Shows c (fun x => f x * scale) lo hi res) ∧
    (plotPdf2d f lo hi res scale = .ok none → ¬ ((∀ i, 2 * res i ≤ hi i - lo i) ∧ Varies (fun x => f x * scale) lo hi)) ∧
    (∀ e, plotPdf2d f lo hi res scale = .error e → hi 0 - lo 0 < 2 * res 0 ∨ hi 1 - lo 1 < 2 * res 1) ∧
    (∀ c, benchmarkPlot f lo hi = .ok (some c) → Shows c (fun x => Real.exp (f x)) lo hi fun _ => 1 / 50) := by
  obtain ⟨grid, dims, shape, h⟩ := makeGrid_ok lo hi res hr
  have e1 : plotPdf2d f lo hi res scale = plotGrid dims (grid.map fun x => f x * scale) shape := by
    unfold plotPdf2d gridSample
    rw [h]
    dsimp only
    rw [List.map_map]
    rfl
  have hsp := plotGrid_spec (g := fun x => f x * scale) hr h
  refine ⟨?_, ?_, ?_, ?_⟩
  · intro c hc
    rw [e1] at hc
    rcases hsp with ⟨c', q1, q2⟩ | ⟨-, q⟩ | ⟨-, q⟩
    · rw [q1] at hc; cases hc; exact q2
    · rw [q] at hc; cases hc
    · rw [q] at hc; cases hc
  · rintro hc ⟨hb, hv⟩
    obtain ⟨c, q, -⟩ := plot_shows (g := fun x => f x * scale) hr hb hv h
    rw [e1, q] at hc
    cases hc
  · intro e hc
    rw [e1] at hc
    rcases hsp with ⟨c', q1, q2⟩ | ⟨-, q⟩ | ⟨q', -⟩
    · rw [q1] at hc; cases hc
    · rw [q] at hc; cases hc
    · exact q'
  · intro c hc
    obtain ⟨grid, dims, shape, h⟩ := makeGrid_ok lo hi (fun _ => 1 / 50) (fun _ => by norm_num)
    have e2 : benchmarkPlot f lo hi = plotGrid dims (grid.map fun x => Real.exp (f x)) shape := by
      unfold benchmarkPlot gridSample
      rw [h]
      dsimp only
      rw [List.map_map]
      rfl
    rw [e2] at hc
    rcases plotGrid_spec (g := fun x => Real.exp (f x)) (fun _ => by norm_num) h with ⟨c', q1, q2⟩ | ⟨-, q⟩ | ⟨-, q⟩
    · rw [q1] at hc; cases hc; exact q2
    · rw [q] at hc; cases hc
    · rw [q] at hc; cases hc

/-- **C147_refuted** The target in the display of a run in two dimensions: what is drawn as the target density is not the
density of the target at any point, for any target and support; and there are such plots. -/
theorem C147_refuted :
    (∀ (f : (Fin 2 → ℝ) → ℝ) (lo hi : Fin 2 → ℝ) (c : Plot), benchmarkPlot f lo hi = .ok (some c) →
      ∀ (i j : ℕ) (x y : ℝ) (row : List ℝ) (v : ℝ), c.xs[i]? = some x → c.ys[j]? = some y → c.z[j]? = some row → row[i]? = some v → v ≠ f ![x, y]) ∧
    ∃ (f : (Fin 2 → ℝ) → ℝ) (lo hi : Fin 2 → ℝ) (c : Plot), benchmarkPlot f lo hi = .ok (some c) ∧ c.xs ≠ [] ∧ c.ys ≠ [] := by
  refine ⟨?_, ?_⟩
  · intro f lo hi c hc i j x y row v hx hy hrow hv e
    have hs := (C147_partial f lo hi (fun _ => 1) 1 fun _ => one_pos).2.2.2 c hc
    obtain ⟨row', q1, q2⟩ := hs.value i j x y hx hy
    rw [hrow] at q1
    cases q1
    rw [hv] at q2
    have hq := Option.some.inj q2
    have := Real.add_one_le_exp (f ![x, y])
    linarith
  · refine ⟨fun x => x 0, ![0, 0], ![1, 1], ?_⟩
    obtain ⟨grid, dims, shape, h⟩ := makeGrid_ok ![0, 0] ![1, 1] (fun _ => 1 / 50) (fun _ => by norm_num)
    obtain ⟨c, hc, hs⟩ := plot_shows (g := fun x => Real.exp (x 0)) (fun _ => by norm_num)
      (by intro i; fin_cases i <;> norm_num)
      (by
        rintro ⟨e, -, -⟩
        have := Real.exp_injective e
        norm_num at this) h
    refine ⟨c, ?_, ?_, ?_⟩
    · unfold benchmarkPlot gridSample
      rw [h]
      dsimp only
      rw [List.map_map]
      exact hc
    · intro e
      have := hs.xaxis.first
      rw [e] at this
      cases this
    · intro e
      have := hs.yaxis.first
      rw [e] at this
      cases this

/-- A plot that is made: the first coordinate on the unit square. -/
example : ∃ c, plotPdf2d (fun x => x 0) ![0, 0] ![1, 1] (fun _ => 1 / 10) 1 = .ok (some c) := by
  have h := C147_partial (fun x => x 0) ![0, 0] ![1, 1] (fun _ => 1 / 10) 1 (fun _ => by norm_num)
  have hb : ∀ i : Fin 2, 2 * ((fun _ => 1 / 10 : Fin 2 → ℝ) i) ≤ (![1, 1] : Fin 2 → ℝ) i - (![0, 0] : Fin 2 → ℝ) i := by
    intro i; fin_cases i <;> norm_num
  cases hc : plotPdf2d (fun x => x 0) ![0, 0] ![1, 1] (fun _ => 1 / 10) 1 with
  | error e =>
    exfalso
    rcases h.2.2.1 e hc with h1 | h1
    · have := hb 0; linarith
    · have := hb 1; linarith
  | ok o =>
    cases o with
    | some c => exact ⟨c, rfl⟩
    | none =>
      exfalso
      refine h.2.1 hc ⟨hb, ?_⟩
      rintro ⟨e, -, -⟩
      norm_num at e

end Contour
end Verif
