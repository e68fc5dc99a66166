import Verif.Props.MultiNestedRun

/-!
# Weights of nested sampling for targets with values between two positive numbers (lemmas for C134, C135)
-/

set_option linter.unusedSectionVars false
set_option autoImplicit false

namespace Verif
namespace Nested

theorem W_sum_bounds (N n : ℕ) : 1 ≤ ∑ i ∈ Finset.range (n + 1), W N i ∧ ∑ i ∈ Finset.range (n + 1), W N i ≤ 2 := by
  rw [W_sum]
  have h1 := Real.exp_pos (-(n : ℝ) / N)
  have h2 : Real.exp (-(n : ℝ) / N) ≤ 1 := Real.exp_le_one_iff.2 (by
    rw [neg_div]
    have : (0 : ℝ) ≤ (n : ℝ) / N := by positivity
    linarith)
  constructor <;> linarith

/-- A later increment is at most one over the number of live points. -/
theorem W_succ_le {N : ℕ} (hN : 0 < N) (i : ℕ) : W N (i + 1) ≤ 1 / N := by
  have hN' : (0 : ℝ) < N := by exact_mod_cast hN
  have e : Real.exp (-((i + 1 : ℕ) : ℝ) / N) = Real.exp (-(i : ℝ) / N) * Real.exp (-(1 / N)) := by
    rw [← Real.exp_add]
    congr 1
    push_cast
    ring
  have h1 := Real.add_one_le_exp (-(1 / (N : ℝ)))
  have h2 : Real.exp (-(i : ℝ) / N) ≤ 1 := Real.exp_le_one_iff.2 (by
    rw [neg_div]
    have : (0 : ℝ) ≤ (i : ℝ) / N := by positivity
    linarith)
  have h3 := Real.exp_pos (-(i : ℝ) / N)
  have h4 : (0 : ℝ) < 1 / N := by positivity
  simp only [W, X]
  rw [e]
  have h5 : Real.exp (-(1 / (N : ℝ))) ≤ 1 := Real.exp_le_one_iff.2 (by linarith)
  nlinarith

/-- The increments from position `k + 1` on add up to less than `exp (-k / N)`. -/
theorem W_tail (N k n : ℕ) : ∑ i ∈ Finset.range n, W N (k + 1 + i) ≤ Real.exp (-(k : ℝ) / N) := by
  have h : ∑ i ∈ Finset.range n, W N (k + 1 + i) = Real.exp (-(k : ℝ) / N) - Real.exp (-((k + n : ℕ) : ℝ) / N) := by
    induction n with
    | zero => simp
    | succ n ih =>
      rw [Finset.sum_range_succ, ih]
      have e : k + 1 + n = (k + n) + 1 := by omega
      rw [e]
      simp only [W, X]
      rw [← add_assoc k n 1]
      ring
  have := Real.exp_pos (-((k + n : ℕ) : ℝ) / N)
  linarith

/-- The weights belonging to recorded likelihoods between `m > 0` and `M`. -/
theorem share_list {N : ℕ} (hN : 0 < N) {L : List ℝ} (hL : L ≠ []) {m M : ℝ} (hm : 0 < m)
    (hb : ∀ l ∈ L, m ≤ l ∧ l ≤ M) :
    ∃ w : List ℝ, finalWeights N L = w.map XF.fin ∧ w.length = L.length ∧ (∀ a ∈ w, 0 ≤ a) ∧ w.sum = 1 ∧ m ≤ Z N L ∧
      (∀ i (hi : i < w.length) (hi' : i < L.length), w[i] * Z N L = L[i] * W N i) := by
  have hlen := List.length_pos_iff.2 hL
  obtain ⟨w, w1, w3, w4, w2, z1, z2⟩ := finalWeights_spec hN (fun l hl => hm.le.trans (hb l hl).1)
    ⟨L[0], List.getElem_mem _, hm.trans_le (hb _ (List.getElem_mem _)).1⟩
  refine ⟨w, w1, w2, w3, w4, ?_, z2⟩
  have hz : Z N L = ∑ i ∈ Finset.range w.length, (w.getD i 0) * Z N L := by
    rw [← Finset.sum_mul, ← sum_of w (fun i => w.getD i 0) (fun i hi => by simp [hi]), w4, one_mul]
  have hsum : m * ∑ i ∈ Finset.range w.length, W N i ≤ Z N L := by
    rw [hz, Finset.mul_sum]
    refine Finset.sum_le_sum fun i hi => ?_
    have hi := Finset.mem_range.1 hi
    have e : w.getD i 0 = w[i] := by simp [hi]
    rw [e, z2 i hi (by omega)]
    exact mul_le_mul_of_nonneg_right (hb _ (List.getElem_mem _)).1 (W_pos hN i).le
  obtain ⟨k, hk⟩ : ∃ k, w.length = k + 1 := ⟨w.length - 1, by omega⟩
  rw [hk] at hsum
  have := (W_sum_bounds N k).1
  nlinarith

/-- The share of the first sample. -/
theorem first_share {N : ℕ} (hN : 0 < N) {L : List ℝ} (hL : L ≠ []) {m M : ℝ} (hm : 0 < m)
    (hb : ∀ l ∈ L, m ≤ l ∧ l ≤ M) :
    ∃ w : List ℝ, finalWeights N L = w.map XF.fin ∧ w.sum = 1 ∧ ∃ h0 : 0 < w.length, m / (m + M) ≤ w[0] := by
  obtain ⟨w, w1, w2, w3, w4, hz, z2⟩ := share_list hN hL hm hb
  have hlen := List.length_pos_iff.2 hL
  have h0 : 0 < w.length := by omega
  refine ⟨w, w1, w4, h0, ?_⟩
  have hM : 0 < M := hm.trans_le ((hb _ (List.getElem_mem hlen)).1.trans (hb _ (List.getElem_mem hlen)).2)
  have hW0 : W N 0 = 1 := by simp [W, X]
  have hrest : ((1 : ℝ) - w[0]) * Z N L ≤ M := by
    have e1 : w.sum = ∑ i ∈ Finset.range w.length, w.getD i 0 :=
      sum_of w (fun i => w.getD i 0) (fun i hi => by simp [hi])
    obtain ⟨k, hk⟩ : ∃ k, w.length = k + 1 := ⟨w.length - 1, by omega⟩
    rw [w4, hk, Finset.sum_range_succ'] at e1
    have e2 : w.getD 0 0 = w[0] := by simp [h0]
    have e3 : ((1 : ℝ) - w[0]) * Z N L = ∑ i ∈ Finset.range k, w.getD (i + 1) 0 * Z N L := by
      rw [← Finset.sum_mul, ← e2]
      congr 1
      linarith
    have e4 : ∑ i ∈ Finset.range k, w.getD (i + 1) 0 * Z N L ≤ M * ∑ i ∈ Finset.range k, W N (i + 1) := by
      rw [Finset.mul_sum]
      refine Finset.sum_le_sum fun i hi => ?_
      have hi : i + 1 < w.length := by have := Finset.mem_range.1 hi; omega
      have e : w.getD (i + 1) 0 = w[i + 1] := by simp [hi]
      rw [e, z2 _ hi (by omega)]
      exact mul_le_mul_of_nonneg_right (hb _ (List.getElem_mem _)).2 (W_pos hN _).le
    have e5 := (C55_partial hN k).2
    rw [e3]
    refine e4.trans ?_
    nlinarith
  have h1 : m ≤ w[0] * Z N L := by
    rw [z2 0 h0 hlen, hW0, mul_one]
    exact (hb _ (List.getElem_mem _)).1
  have hw0 : (0 : ℝ) ≤ w[0] := w3 _ (List.getElem_mem h0)
  rw [div_le_iff₀ (by linarith)]
  by_contra hlt
  have hlt := not_le.1 hlt
  have h2 : w[0] * M < m * ((1 : ℝ) - w[0]) := by linarith
  have h3 : m * ((1 : ℝ) - w[0]) ≤ w[0] * Z N L * ((1 : ℝ) - w[0]) := by
    by_cases hc : w[0] ≤ 1
    · exact mul_le_mul_of_nonneg_right h1 (by linarith)
    · exfalso
      have : (0 : ℝ) ≤ w[0] * M := mul_nonneg hw0 hM.le
      nlinarith
  have h4 : w[0] * Z N L * ((1 : ℝ) - w[0]) ≤ w[0] * M := by
    have := mul_le_mul_of_nonneg_left hrest hw0
    linarith
  linarith

/-- The share of every other sample. -/
theorem other_share {N : ℕ} (hN : 0 < N) {L : List ℝ} (hL : L ≠ []) {m M : ℝ} (hm : 0 < m)
    (hb : ∀ l ∈ L, m ≤ l ∧ l ≤ M) :
    ∃ w : List ℝ, finalWeights N L = w.map XF.fin ∧ w.length = L.length ∧
      ∀ i (hi : i < w.length), 1 ≤ i → 0 ≤ w[i] ∧ w[i] ≤ M / m / N := by
  obtain ⟨w, w1, w2, w3, w4, hz, z2⟩ := share_list hN hL hm hb
  refine ⟨w, w1, w2, fun i hi h1 => ⟨w3 _ (List.getElem_mem _), ?_⟩⟩
  obtain ⟨j, rfl⟩ : ∃ j, i = j + 1 := ⟨i - 1, by omega⟩
  have hlen := List.length_pos_iff.2 hL
  have hM : 0 < M := hm.trans_le ((hb _ (List.getElem_mem hlen)).1.trans (hb _ (List.getElem_mem hlen)).2)
  have hN' : (0 : ℝ) < N := by exact_mod_cast hN
  have h2 : w[j + 1] * Z N L ≤ M * W N (j + 1) := by
    rw [z2 _ hi (by omega)]
    exact mul_le_mul_of_nonneg_right (hb _ (List.getElem_mem _)).2 (W_pos hN _).le
  have h3 := W_succ_le hN j
  have h4 : w[j + 1] * m ≤ M * (1 / N) :=
    (mul_le_mul_of_nonneg_left hz (w3 _ (List.getElem_mem _))).trans
      (h2.trans (mul_le_mul_of_nonneg_left h3 hM.le))
  rw [div_div, le_div_iff₀ (by positivity)]
  have h5 : M * (1 / (N : ℝ)) * N = M := by field_simp
  nlinarith

/-! ### Averages of a list and of a longer one -/

/-- Weighted average of the values `ys`, with the weights of the likelihoods `L`. -/
theorem average_eq {N : ℕ} {L : List ℝ} {w ys : List ℝ} (hz : 0 < Z N L) (hw : w.length = L.length)
    (hy : ys.length = L.length)
    (z2 : ∀ i (hi : i < w.length) (hi' : i < L.length), w[i] * Z N L = L[i] * W N i) :
    (List.zipWith (· * ·) ys w).sum =
      (∑ i ∈ Finset.range L.length, ys.getD i 0 * (L.getD i 0 * W N i)) / Z N L := by
  rw [sum_of (List.zipWith (· * ·) ys w) (fun i => ys.getD i 0 * (L.getD i 0 * W N i) / Z N L), ← Finset.sum_div]
  · congr 2
    simp [hw, hy]
  · intro i hi
    have hi : i < ys.length ∧ i < w.length := by simpa using hi
    rw [List.getElem_zipWith, eq_div_iff hz.ne', mul_assoc, z2 i hi.2 (by omega)]
    have e1 : ys.getD i 0 = ys[i] := by simp [hi.1]
    have e2 : L.getD i 0 = L[i] := by simp [show i < L.length by omega]
    rw [e1, e2]

theorem Z_eq (N : ℕ) (L : List ℝ) : Z N L = ∑ i ∈ Finset.range L.length, L.getD i 0 * W N i := by
  unfold Z
  rw [sum_of (L.mapIdx fun i l => l * W N i) (fun i => L.getD i 0 * W N i)]
  · simp
  · intro i hi
    have hi : i < L.length := by simpa using hi
    simp [hi]

/-- Averages over the longer list differ little. -/
theorem settle_list {N : ℕ} (hN : 0 < N) {L L' : List ℝ} {ys ys' : List ℝ} (hL : L ≠ []) (hpre : L <+: L')
    (hypre : ys <+: ys') (hy : ys.length = L.length) (hy' : ys'.length = L'.length) {m M B : ℝ} (hm : 0 < m)
    (hb : ∀ l ∈ L', m ≤ l ∧ l ≤ M) (hB : ∀ y ∈ ys', |y| ≤ B) :
    ∃ w w' : List ℝ, finalWeights N L = w.map XF.fin ∧ finalWeights N L' = w'.map XF.fin ∧
      |(List.zipWith (· * ·) ys' w').sum - (List.zipWith (· * ·) ys w).sum| ≤
        2 * B * (M / m) * Real.exp (-((L.length - 1 : ℕ) : ℝ) / N) := by
  obtain ⟨new, rfl⟩ := hpre
  obtain ⟨ynew, rfl⟩ := hypre
  have hb1 : ∀ l ∈ L, m ≤ l ∧ l ≤ M := fun l hl => hb l (List.mem_append_left _ hl)
  obtain ⟨w, w1, w2, w3, w4, hz, z2⟩ := share_list hN hL hm hb1
  obtain ⟨w', w1', w2', w3', w4', hz', z2'⟩ := share_list hN (by simp [hL]) hm hb
  refine ⟨w, w', w1, w1', ?_⟩
  have hlen := List.length_pos_iff.2 hL
  have hM : 0 < M := hm.trans_le ((hb1 _ (List.getElem_mem hlen)).1.trans (hb1 _ (List.getElem_mem hlen)).2)
  have hyn : ynew.length = new.length := by simp [hy] at hy'; exact hy'
  rw [average_eq (hm.trans_le hz) w2 hy z2, average_eq (hm.trans_le hz') w2' hy' z2']
  set A := ∑ i ∈ Finset.range L.length, ys.getD i 0 * (L.getD i 0 * W N i) with hA
  set T := ∑ i ∈ Finset.range new.length, new.getD i 0 * W N (L.length + i) with hT
  set a := ∑ i ∈ Finset.range new.length, ynew.getD i 0 * (new.getD i 0 * W N (L.length + i)) with ha
  have gl : ∀ i < L.length, (L ++ new).getD i 0 = L.getD i 0 := fun i hi => by
    simp [List.getElem?_append_left hi]
  have gr : ∀ i, (L ++ new).getD (L.length + i) 0 = new.getD i 0 := fun i => by simp [List.getElem?_append_right]
  have yl : ∀ i < L.length, (ys ++ ynew).getD i 0 = ys.getD i 0 := fun i hi => by
    simp [List.getElem?_append_left (show i < ys.length by omega)]
  have yr : ∀ i, (ys ++ ynew).getD (L.length + i) 0 = ynew.getD i 0 := fun i => by rw [← hy]; simp [List.getElem?_append_right]
  have eZ : Z N (L ++ new) = Z N L + T := by
    rw [Z_eq, Z_eq, List.length_append, Finset.sum_range_add]
    congr 1
    · refine Finset.sum_congr rfl fun i hi => ?_
      rw [gl i (Finset.mem_range.1 hi)]
    · refine Finset.sum_congr rfl fun i _ => ?_
      rw [gr]
  have eA : ∑ i ∈ Finset.range (L ++ new).length, (ys ++ ynew).getD i 0 * ((L ++ new).getD i 0 * W N i) = A + a := by
    rw [List.length_append, Finset.sum_range_add]
    congr 1
    · refine Finset.sum_congr rfl fun i hi => ?_
      rw [gl i (Finset.mem_range.1 hi), yl i (Finset.mem_range.1 hi)]
    · refine Finset.sum_congr rfl fun i _ => ?_
      rw [gr, yr]
  rw [eA, eZ]
  have hZ : 0 < Z N L := hm.trans_le hz
  have hnewb : ∀ i < new.length, m ≤ new.getD i 0 ∧ new.getD i 0 ≤ M := fun i hi => by
    have e : new.getD i 0 = new[i] := by simp [hi]
    rw [e]
    exact hb _ (List.mem_append_right _ (List.getElem_mem _))
  have hT0 : 0 ≤ T := Finset.sum_nonneg fun i hi =>
    mul_nonneg (hm.le.trans (hnewb i (Finset.mem_range.1 hi)).1) (W_pos hN _).le
  have hTle : T ≤ M * Real.exp (-((L.length - 1 : ℕ) : ℝ) / N) := by
    have h1 : T ≤ M * ∑ i ∈ Finset.range new.length, W N (L.length + i) := by
      rw [hT, Finset.mul_sum]
      exact Finset.sum_le_sum fun i hi =>
        mul_le_mul_of_nonneg_right (hnewb i (Finset.mem_range.1 hi)).2 (W_pos hN _).le
    refine h1.trans (mul_le_mul_of_nonneg_left ?_ hM.le)
    have := W_tail N (L.length - 1) new.length
    rwa [show L.length - 1 + 1 = L.length by omega] at this
  have hy0 : 0 < ys.length := by omega
  have hB0 : 0 ≤ B := (abs_nonneg _).trans (hB _ (List.mem_append_left _ (List.getElem_mem hy0)))
  have hAle : |A| ≤ B * Z N L := by
    rw [Z_eq, Finset.mul_sum, hA]
    refine (Finset.abs_sum_le_sum_abs _ _).trans (Finset.sum_le_sum fun i hi => ?_)
    have hi := Finset.mem_range.1 hi
    have e : ys.getD i 0 = ys[i]'(by omega) := by simp [show i < ys.length by omega]
    have e2 : L.getD i 0 = L[i] := by simp [hi]
    have hp : 0 ≤ L.getD i 0 * W N i := by
      rw [e2]
      exact mul_nonneg (hm.le.trans (hb1 _ (List.getElem_mem _)).1) (W_pos hN _).le
    rw [abs_mul, abs_of_nonneg hp, e]
    exact mul_le_mul_of_nonneg_right (hB _ (List.mem_append_left _ (List.getElem_mem _))) hp
  have hale : |a| ≤ B * T := by
    rw [hT, Finset.mul_sum, ha]
    refine (Finset.abs_sum_le_sum_abs _ _).trans (Finset.sum_le_sum fun i hi => ?_)
    have hi := Finset.mem_range.1 hi
    have e : ynew.getD i 0 = ynew[i]'(by omega) := by simp [show i < ynew.length by omega]
    have hp : 0 ≤ new.getD i 0 * W N (L.length + i) := mul_nonneg (hm.le.trans (hnewb i hi).1) (W_pos hN _).le
    rw [abs_mul, abs_of_nonneg hp, e]
    exact mul_le_mul_of_nonneg_right (hB _ (List.mem_append_right _ (List.getElem_mem _))) hp
  have e1 : (A + a) / (Z N L + T) - A / Z N L = (a * Z N L - A * T) / (Z N L * (Z N L + T)) := by
    have : Z N L + T ≠ 0 := by positivity
    field_simp
    ring
  have hnum : |a * Z N L - A * T| ≤ 2 * B * T * Z N L := by
    refine (abs_sub _ _).trans ?_
    rw [abs_mul, abs_mul, abs_of_pos hZ, abs_of_nonneg hT0]
    nlinarith [mul_le_mul_of_nonneg_right hale hZ.le, mul_le_mul_of_nonneg_right hAle hT0]
  rw [e1, abs_div, abs_of_pos (a := Z N L * (Z N L + T)) (by positivity), div_le_iff₀ (by positivity)]
  refine hnum.trans ?_
  set E := Real.exp (-((L.length - 1 : ℕ) : ℝ) / N)
  have hE : 0 < E := Real.exp_pos _
  have h5 : T ≤ (M / m * E) * (Z N L + T) := by
    have h6 : M * E = (M / m * E) * m := by field_simp
    calc T ≤ M * E := hTle
      _ = (M / m * E) * m := h6
      _ ≤ (M / m * E) * (Z N L + T) := mul_le_mul_of_nonneg_left (by linarith) (by positivity)
  have h7 : 0 ≤ 2 * B * Z N L := by positivity
  nlinarith [mul_le_mul_of_nonneg_left h5 h7]

end Nested
end Verif
