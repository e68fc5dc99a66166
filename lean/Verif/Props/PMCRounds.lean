import Verif.Proof.PMCRounds

/-!
# Property C120: the weights of M-PMC over several batches
-/

set_option linter.unusedSectionVars false
set_option autoImplicit false

namespace Verif
namespace PMC

open Matrix

variable {d N : ℕ}

/-- What the arrays of an M-PMC object are: as long as no weight is undefined they consist of one batch of `K` samples per
past iteration. The weights of the batch are target density / reported density at the time of drawing, divided by their sum
over this batch. -/
theorem C120_batches (hd : 0 < d) (hN : 0 < N) {k : ℕ} (hk : 0 < k) {sigma : ℝ} (hs : 0 < sigma) {lo hi : Fin d → ℝ}
    {t : (Fin d → XF ℝ) → XF ℝ} (ht : ∀ x : Fin d → ℝ, IsLogDensity (t (up x))) {past : List (PMC d N)} {S : PMC d N}
    (h : Rounds k sigma lo hi t past S) (hnan : XF.nan ∉ S.weights) :
    S.samples.length = past.length * k ∧ S.weights.length = past.length * k ∧
    ∀ r R, past[r]? = some R → ∃ (ys : List (Fin d → ℝ)) (q : (Fin d → ℝ) → ℝ), ys.length = k ∧
      (∀ x, 0 < q x ∧ R.prob (up x) = .fin (q x) ∧ R.logProb (up x) = .fin (Real.log (q x))) ∧
      R.samples = S.samples.take (r * k) ∧ R.weights = S.weights.take (r * k) ∧
      (S.samples.drop (r * k)).take k = ys.map up ∧
      0 < (ys.map fun y => densOf (t (up y)) / q y).sum ∧
      (S.weights.drop (r * k)).take k =
        ys.map fun y => XF.fin (densOf (t (up y)) / q y / (ys.map fun y => densOf (t (up y)) / q y).sum) := by
  induction h with
  | reset u S h =>
    obtain ⟨-, h1, h2⟩ := reset_good hN k sigma lo hi u S h
    exact ⟨by simp [h1], by simp [h2], by simp⟩
  | round past S S' h it hb ih =>
    obtain ⟨new, hs1, hs2⟩ := body_appends hb
    have hnS : XF.nan ∉ S.weights := fun hm => hnan (by rw [hs2]; exact List.mem_append_left _ hm)
    have hnR : XF.nan ∉ (rowsOf t S new).map Row.w := fun hm => hnan (by rw [hs2]; exact List.mem_append_right _ hm)
    obtain ⟨hl1, hl2, ih⟩ := ih hnS
    have hR := rounds_reach ht h
    have hg : Good k S := by
      rcases reach_cases hd hN hk hR with hg | hp
      · exact hg
      · exact absurd hp.weights hnS
    obtain ⟨-, -, q, -, -, -, -, -, hq1, hq2, hq3, -⟩ := C98_partial hd hN hk hs hR hnS
    obtain ⟨m, idx, ys, -, hys, hcase⟩ := body_good hd hN hk S hg t ht it
    have hyl : ys.length = k := by rw [hys]; simp
    rw [hb] at hcase
    obtain ⟨hpos, hsam⟩ : (∃ y ∈ ys, 0 < densOf (t (up y))) ∧ S'.samples = S.samples ++ ys.map up := by
      rcases hcase with ⟨hpos, rs, -, -, -, h | h⟩ | h
      · exact ⟨hpos, h.2.2.2.1⟩
      · cases h.2
      · exact absurd h.2.2.1.weights hnan
    have hnew : new = ys.map up := by
      rw [hs1] at hsam
      exact List.append_cancel_left hsam
    subst hnew
    have hw := batch_weights ht S q hq3 hq2 ys hnR
    rw [hw] at hs2
    refine ⟨by rw [hs1]; simp [hl1, hyl]; ring, by rw [hs2]; simp [hl2, hyl]; ring, ?_⟩
    intro r R hr
    rcases lt_trichotomy r past.length with hlt | rfl | hgt
    · rw [List.getElem?_append_left hlt] at hr
      obtain ⟨ys', q', h1, h2, h3, h4, h5, h6, h7⟩ := ih r R hr
      have hle : r * k + k ≤ past.length * k := by
        calc r * k + k = (r + 1) * k := by ring
          _ ≤ _ := Nat.mul_le_mul_right _ hlt
      refine ⟨ys', q', h1, h2, ?_, ?_, ?_, h6, ?_⟩
      · rw [hs1, List.take_append_of_le_length (by omega), h3]
      · rw [hs2, List.take_append_of_le_length (by omega), h4]
      · rw [hs1, List.drop_append_of_le_length (by omega), List.take_append_of_le_length (by simp; omega), h5]
      · rw [hs2, List.drop_append_of_le_length (by omega), List.take_append_of_le_length (by simp; omega), h7]
    · simp only [List.getElem?_append_right le_rfl, Nat.sub_self, List.getElem?_cons_zero, Option.some.injEq] at hr
      subst hr
      refine ⟨ys, q, hyl, fun x => ⟨hq3 x, hq1 x, hq2 x⟩, ?_, ?_, ?_, ?_, ?_⟩
      · rw [hs1, ← hl1, List.take_left]
      · rw [hs2, ← hl2, List.take_left]
      · rw [hs1, ← hl1, List.drop_left, List.take_of_length_le (by simp [hyl])]
      · obtain ⟨y, hy, hp⟩ := hpos
        refine lt_of_lt_of_le (div_pos hp (hq3 y)) (List.single_le_sum ?_ _ (List.mem_map.2 ⟨y, hy, rfl⟩))
        intro v hv
        obtain ⟨z, -, rfl⟩ := List.mem_map.1 hv
        exact div_nonneg (densOf_nonneg _) (hq3 z).le
      · rw [hs2, ← hl2, List.drop_left, List.take_of_length_le (by simp [hyl])]
    · rw [List.getElem?_eq_none (by simp; omega)] at hr
      cases hr

/-- C120: what holds. As long as no weight is undefined, the weights of two samples of the same batch are in the proportion
of target density / reported density at the time of drawing. Missing with respect to C120: samples of different batches. -/
theorem C120_partial (hd : 0 < d) (hN : 0 < N) {k : ℕ} (hk : 0 < k) {sigma : ℝ} (hs : 0 < sigma) {lo hi : Fin d → ℝ}
    {t : (Fin d → XF ℝ) → XF ℝ} (ht : ∀ x : Fin d → ℝ, IsLogDensity (t (up x))) {past : List (PMC d N)} {S : PMC d N}
    (h : Rounds k sigma lo hi t past S) (hnan : XF.nan ∉ S.weights) :
    (∀ i < S.samples.length, ∃ w p q, Drawn k t past S i w p q ∧ 0 < q ∧ (0 < p → 0 < w)) ∧
    ∀ i j, i / k = j / k → SameScale k t past S i j := by
  obtain ⟨h1, h2, h3⟩ := C120_batches hd hN hk hs ht h hnan
  have key : ∀ i R, past[i / k]? = some R → ∃ (q : (Fin d → ℝ) → ℝ) (Z : ℝ), 0 < Z ∧ (∀ x, 0 < q x ∧ R.prob (up x) = .fin (q x)) ∧
      ∀ j, j / k = i / k → ∃ y, S.samples[j]? = some (up y) ∧ S.weights[j]? = some (.fin (densOf (t (up y)) / q y / Z)) := by
    intro i R hR
    obtain ⟨ys, q, g1, g2, -, -, g3, g4, g5⟩ := h3 _ R hR
    refine ⟨q, _, g4, fun x => ⟨(g2 x).1, (g2 x).2.1⟩, ?_⟩
    intro j hj
    have hj' : j = i / k * k + j % k := by rw [← hj]; exact (Nat.div_add_mod' j k).symm
    have hm : j % k < k := Nat.mod_lt _ hk
    have e1 := congrArg (fun l => l[j % k]?) g3
    have e2 := congrArg (fun l => l[j % k]?) g5
    simp only [List.getElem?_take_of_lt hm, List.getElem?_drop, ← hj', List.getElem?_map] at e1 e2
    rw [List.getElem?_eq_getElem (by omega : j % k < ys.length)] at e1 e2
    exact ⟨ys[j % k], e1, e2⟩
  refine ⟨?_, ?_⟩
  · intro i hi
    rw [h1] at hi
    have hlt : i / k < past.length := by
      rw [Nat.div_lt_iff_lt_mul hk]
      exact hi
    obtain ⟨q, Z, hZ, hq, hall⟩ := key i past[i / k] (List.getElem?_eq_getElem hlt)
    obtain ⟨y, hy1, hy2⟩ := hall i rfl
    exact ⟨_, _, q y, ⟨y, _, hy1, hy2, rfl, List.getElem?_eq_getElem hlt, (hq y).2⟩, (hq y).1,
      fun hp => div_pos (div_pos hp (hq y).1) hZ⟩
  · rintro i j hij w p q w' p' q' ⟨x, R, a1, a2, rfl, a3, a4⟩ ⟨x', R', b1, b2, rfl, b3, b4⟩
    rw [← hij, a3] at b3
    cases b3
    obtain ⟨g, Z, hZ, hg, hall⟩ := key i R a3
    obtain ⟨y, hy1, hy2⟩ := hall i rfl
    obtain ⟨y', hy1', hy2'⟩ := hall j hij.symm
    have hup : Function.Injective (up : (Fin d → ℝ) → _) := by
      intro f g h
      funext n
      have := congrFun h n
      simpa [up] using this
    rw [a1] at hy1
    rw [b1] at hy1'
    have ex := hup (Option.some.inj hy1)
    have ex' := hup (Option.some.inj hy1')
    subst ex ex'
    rw [a2] at hy2
    rw [b2] at hy2'
    have ew := XF.fin.inj (Option.some.inj hy2)
    have ew' := XF.fin.inj (Option.some.inj hy2')
    rw [(hg x).2] at a4
    rw [(hg x').2] at b4
    have eq1 := XF.fin.inj a4
    have eq2 := XF.fin.inj b4
    rw [ew, ew', ← eq1, ← eq2]
    ring

/-- Outcomes of the counterexample: the noise is `-3` for the first and `3` for the second sample of a batch. -/
def exWide : Iter 1 := ⟨fun _ _ _ => false, fun _ j _ => if j = 0 then -3 else 3, false⟩

theorem gauss_dim1 (m : Fin 1 → ℝ) (c : ℝ) (hc : 0 < c) (x : Fin 1 → ℝ) :
    gauss m (Matrix.diagonal fun _ => c) x = Real.exp (-(1/2) * ((x 0 - m 0) ^ 2 / c)) / Real.sqrt (2 * Real.pi * c) := by
  unfold gauss
  have hinv : (Matrix.diagonal fun _ : Fin 1 => c)⁻¹ = Matrix.diagonal fun _ => c⁻¹ := by
    apply Matrix.inv_eq_right_inv
    rw [Matrix.diagonal_mul_diagonal]
    simp [hc.ne']
  rw [Matrix.det_diagonal, hinv]
  simp [Matrix.mulVec_diagonal, dotProduct]
  ring_nf

/-- In one dimension with one component the reported density is that of the component. -/
theorem prob_one_dim {k : ℕ} (hk : 0 < k) {sigma : ℝ} (hs : 0 < sigma) {lo hi : Fin 1 → ℝ} {S : PMC 1 1}
    (h : Reach k sigma lo hi S) (hn : XF.nan ∉ S.weights) (c : ℝ) (hc0 : 0 < c) (hc : S.covs 0 = Matrix.diagonal fun _ => c) :
    ∃ m : Fin 1 → ℝ, S.means = (fun _ => up m) ∧ ∀ x : Fin 1 → ℝ, S.prob (up x) =
      .fin (Real.exp (-(1/2) * ((x 0 - m 0) ^ 2 / c)) / Real.sqrt (2 * Real.pi * c)) := by
  obtain ⟨a, m, g, -, h2, h3, -, h5, h6, -⟩ := C98_partial one_pos one_pos hk hs h hn
  refine ⟨m 0, ?_, ?_⟩
  · rw [h3]
    funext n
    rw [Subsingleton.elim n 0]
  · intro x
    rw [h6, h5]
    simp only [Finset.univ_unique, Fin.default_eq_zero, Finset.sum_singleton] at h2 ⊢
    rw [h2, one_mul, hc, gauss_dim1 _ _ hc0]

/-- One iteration of the counterexample from a state with a diagonal covariance. -/
theorem wide_round {sigma : ℝ} (hs : 0 < sigma) {lo hi : Fin 1 → ℝ} {S : PMC 1 1} {past : List (PMC 1 1)}
    (h : Rounds 2 sigma lo hi (fun _ => XF.fin 0) past S) (hg : Good 2 S) (c : ℝ)
    (hc0 : 0 < c) (hc : S.covs 0 = Matrix.diagonal fun _ => c) :
    ∃ S', body 2 (fun _ => XF.fin 0) exWide S = (S', none) ∧ Good 2 S' ∧ (S'.covs 0 = Matrix.diagonal fun _ => 10) ∧
      ∃ x : Fin 1 → ℝ, S'.samples = S.samples ++ [up x, up (x + 6)] ∧
        S.prob (up x) = .fin (Real.exp (-(9 / 2) / c) / Real.sqrt (2 * Real.pi * c)) ∧
        S.prob (up (x + 6)) = .fin (Real.exp (-(9 / 2) / c) / Real.sqrt (2 * Real.pi * c)) := by
  have ht : ∀ x : Fin 1 → ℝ, IsLogDensity ((fun _ => XF.fin 0 : (Fin 1 → XF ℝ) → XF ℝ) (up x)) := fun _ => Or.inr ⟨0, rfl⟩
  have hpos : ∀ x : Fin 1 → ℝ, 0 < densOf ((fun _ => XF.fin 0 : (Fin 1 → XF ℝ) → XF ℝ) (up x)) := by
    intro x; simp [densOf]
  have hne : exWide.noise 0 0 0 ≠ exWide.noise 0 1 0 := by norm_num [exWide]
  obtain ⟨e1, -, -, g1, -⟩ := body_one_dim S hg (fun _ => .fin 0) ht exWide hne
  have hn := good_no_nan hg
  obtain ⟨m, hm, hp⟩ := prob_one_dim (by norm_num) hs (rounds_reach ht h) hn c hc0 hc
  obtain ⟨m', idx, ys, hm', hys, hcase⟩ := body_good (by norm_num) (by norm_num) (by norm_num) S hg (fun _ => .fin 0) ht exWide
  have hmm : m' 0 0 = m 0 := by
    have := congrFun (congrFun (hm'.symm.trans hm) 0) 0
    simpa [up] using this
  have hidx : ∀ j, idx j = 0 := fun j => Subsingleton.elim _ _
  have hys2 : ys = [fun _ => m 0 - 3, (fun _ => m 0 - 3) + 6] := by
    rw [hys]
    have : List.range 2 = [0, 1] := rfl
    rw [this]
    simp only [List.map_cons, List.map_nil, hidx, List.cons.injEq, and_true]
    refine ⟨?_, ?_⟩
    · funext i
      rw [Subsingleton.elim i 0, hmm]
      simp [exWide]
      ring
    · funext i
      rw [Subsingleton.elim i 0, hmm]
      simp [exWide]
      ring
  refine ⟨(body 2 (fun _ => XF.fin 0) exWide S).1, Prod.ext rfl e1, g1 hpos, ?_⟩
  rcases hcase with ⟨-, rs, hrs, -, -, h1 | h1⟩ | h1
  · obtain ⟨-, -, -, hsam, -, hcov⟩ := h1
    refine ⟨?_, fun _ => m 0 - 3, ?_, ?_, ?_⟩
    · rw [hcov]
      simp only
      unfold rSafe
      rw [if_pos]
      refine ⟨0, 0, ?_⟩
      rw [hys2] at hrs
      obtain ⟨r1, rs1, rfl, hr1, hrs⟩ := List.map_eq_cons_iff.1 hrs
      obtain ⟨r2, rs2, rfl, hr2, hrs⟩ := List.map_eq_cons_iff.1 hrs
      rw [List.map_eq_nil_iff] at hrs
      subst hrs
      simp only [scatter, Matrix.of_apply, List.map_cons, List.map_nil, List.sum_cons, List.sum_nil, add_zero]
      set mu := rMean [r1, r2] 0
      have e1 : r1.x 0 = m 0 - 3 := by rw [hr1]
      have e2 : r2.x 0 = m 0 + 3 := by
        rw [hr2]
        simp
        ring
      rw [e1, e2]
      nlinarith [sq_nonneg (m 0 - mu 0)]
    · rw [hsam, hys2]
      simp
    · rw [hp]
      congr 3
      ring
    · rw [hp]
      have : ((fun _ => m 0 - 3 : Fin 1 → ℝ) + 6) 0 = m 0 + 3 := by simp; ring
      rw [this]
      congr 3
      ring
  · rw [e1] at h1
    cases h1.2
  · have := h1.1 (fun _ => m 0 - 3) (by rw [hys2]; simp)
    have h5 := hpos (fun _ => m 0 - 3)
    rw [this] at h5
    exact absurd h5 (lt_irrefl _)

/-- The run of the counterexample: two batches of two samples. -/
theorem wide_run : ∃ S0 S1 S2 : PMC 1 1, Rounds 2 1 0 1 (fun _ => XF.fin 0) [S0, S1] S2 ∧ XF.nan ∉ S2.weights ∧
    importanceSample 2 (fun _ => XF.fin 0) 4 false [exWide, exWide] S0 = .done S2 ∧
    ∃ x x' : Fin 1 → ℝ, S2.samples = [up x, up (x + 6), up x', up (x' + 6)] ∧
      (∀ y ∈ [x, x + 6], S0.prob (up y) = .fin (Real.exp (-(9 / 2) / 1) / Real.sqrt (2 * Real.pi * 1))) ∧
      (∀ y ∈ [x', x' + 6], S1.prob (up y) = .fin (Real.exp (-(9 / 2) / 10) / Real.sqrt (2 * Real.pi * 10))) := by
  obtain ⟨S, hS⟩ := reset_ok (d := 1) (N := 1) one_pos 1 one_pos 0 1 0
  obtain ⟨hg, hs, -⟩ := reset_good one_pos 2 1 0 1 0 S hS
  have r0 : Rounds 2 1 0 1 (fun _ => XF.fin 0) [] S := .reset 0 S hS
  have hc0 : S.covs 0 = Matrix.diagonal fun _ => 1 := by
    unfold reset at hS
    rw [if_neg (by omega), if_pos (by simp), setWeights_uniform 1 one_pos] at hS
    cases hS
    rfl
  obtain ⟨S1, b1, g1, c1, x, s1, p1, p1'⟩ := wide_round one_pos r0 hg 1 one_pos hc0
  have r1 : Rounds 2 1 0 1 (fun _ => XF.fin 0) [S] S1 := .round [] S S1 r0 exWide b1
  obtain ⟨S2, b2, g2, -, x', s2, p2, p2'⟩ := wide_round one_pos r1 g1 10 (by norm_num) c1
  have r2 : Rounds 2 1 0 1 (fun _ => XF.fin 0) [S, S1] S2 := .round [S] S1 S2 r1 exWide b2
  rw [hs] at s1
  rw [s1] at s2
  refine ⟨S, S1, S2, r2, good_no_nan g2, ?_, x, x', s2, ?_, ?_⟩
  · exact run_two _ 4 exWide exWide rfl S S1 S2 b1 b2 (by rw [hs]; simp) (by rw [s1]; simp) (by rw [s2]; simp)
  · intro y hy
    simp only [List.mem_cons, List.not_mem_nil, or_false] at hy
    rcases hy with rfl | rfl
    · exact p1
    · exact p1'
  · intro y hy
    simp only [List.mem_cons, List.not_mem_nil, or_false] at hy
    rcases hy with rfl | rfl
    · exact p2
    · exact p2'

/-- **C120** (negation) One dimension, one component, `K = 2`, constant target: a call for 4 samples draws a batch from a
normal distribution with variance 1 and a batch from one with variance 10. All four weights are equal although the
importance weights of the two batches differ by a factor of more than 18. -/
theorem C120_refuted : ¬ ∀ (t : (Fin 1 → XF ℝ) → XF ℝ), (∀ x : Fin 1 → ℝ, 0 < densOf (t (up x))) →
    ∀ (past : List (PMC 1 1)) (S : PMC 1 1), Rounds 2 1 0 1 t past S → XF.nan ∉ S.weights →
      ∀ i j, i < S.samples.length → j < S.samples.length → SameScale 2 t past S i j := by
  intro h
  have ht : ∀ x : Fin 1 → ℝ, IsLogDensity ((fun _ => XF.fin 0 : (Fin 1 → XF ℝ) → XF ℝ) (up x)) := fun _ => Or.inr ⟨0, rfl⟩
  obtain ⟨S0, S1, S2, hr, hn, -, x, x', hs, p0, p1⟩ := wide_run
  have hall := h (fun _ => XF.fin 0) (by intro x; simp [densOf]) _ _ hr hn 0 2 (by rw [hs]; simp) (by rw [hs]; simp)
  obtain ⟨-, -, hb⟩ := C120_batches one_pos one_pos (by norm_num) one_pos ht hr hn
  have hup : Function.Injective (up : (Fin 1 → ℝ) → _) := by
    intro f g h
    funext n
    have := congrFun h n
    simpa [up] using this
  -- both weights are one half
  have half : ∀ r R (v : Fin 1 → ℝ) (Q : ℝ), 0 < Q → [S0, S1][r]? = some R →
      (S2.samples.drop (r * 2)).take 2 = [up v, up (v + 6)] → (∀ y ∈ [v, v + 6], R.prob (up y) = .fin Q) →
      S2.weights[r * 2]? = some (.fin (1 / 2)) := by
    intro r R v Q hQ hR hv hp
    obtain ⟨ys, q, -, hq, -, -, h5, -, h7⟩ := hb r R hR
    rw [hv] at h5
    have hys : ys = [v, v + 6] := by
      have : [v, v + 6].map up = ys.map up := by simpa using h5
      exact ((List.map_injective_iff.2 hup) this).symm
    have q1 : q v = Q := by
      have := hp v (by simp)
      rw [(hq v).2.1] at this
      exact XF.fin.inj this
    have q2 : q (v + 6) = Q := by
      have := hp (v + 6) (by simp)
      rw [(hq (v + 6)).2.1] at this
      exact XF.fin.inj this
    have := congrArg (fun l => l[0]?) h7
    simp only [List.getElem?_take_of_lt (by norm_num : 0 < 2), List.getElem?_drop, add_zero] at this
    rw [this, hys]
    simp only [List.map_cons, List.map_nil, List.getElem?_cons_zero, List.sum_cons, List.sum_nil, add_zero, q1, q2, densOf,
      Real.exp_zero]
    congr 2
    field_simp
    norm_num
  have hpi := Real.pi_pos
  have w0 := half 0 S0 x _ (by positivity) rfl (by rw [hs]; rfl) p0
  have w1 := half 1 S1 x' _ (by positivity) rfl (by rw [hs]; rfl) p1
  have key := hall _ _ _ _ _ _ ⟨x, S0, by rw [hs]; rfl, w0, rfl, rfl, p0 x (by simp)⟩
    ⟨x', S1, by rw [hs]; rfl, w1, rfl, rfl, p1 x' (by simp)⟩
  simp only [densOf, Real.exp_zero] at key
  have hsq : Real.sqrt (2 * Real.pi * 10) = Real.sqrt 10 * Real.sqrt (2 * Real.pi * 1) := by
    rw [← Real.sqrt_mul (by norm_num)]
    congr 1
    ring
  have hs1 : 0 < Real.sqrt (2 * Real.pi * 1) := Real.sqrt_pos.2 (by positivity)
  have h10 : 0 < Real.sqrt 10 := Real.sqrt_pos.2 (by norm_num)
  rw [hsq] at key
  have e1 := Real.exp_pos (-(9 / 2) / 1)
  have e2 := Real.exp_pos (-(9 / 2) / 10)
  have key2 : Real.exp (-(9 / 2) / 1) * Real.sqrt 10 = Real.exp (-(9 / 2) / 10) := by
    field_simp at key
    field_simp
    linarith
  have key3 : Real.sqrt 10 = Real.exp (81 / 20) := by
    have : Real.exp (-(9 / 2) / 10) = Real.exp (-(9 / 2) / 1) * Real.exp (81 / 20) := by
      rw [← Real.exp_add]
      congr 1
      norm_num
    rw [this] at key2
    exact mul_left_cancel₀ e1.ne' key2
  have h4 : Real.sqrt 10 < 4 := by
    rw [show (4 : ℝ) = Real.sqrt 16 by rw [show (16 : ℝ) = 4 ^ 2 by norm_num]; exact (Real.sqrt_sq (by norm_num)).symm]
    exact Real.sqrt_lt_sqrt (by norm_num) (by norm_num)
  have h5 := Real.add_one_le_exp (81 / 20 : ℝ)
  rw [← key3] at h5
  linarith

/-- The hypotheses of C120 are met by a call that draws two batches. -/
example : ∃ S0 S1 S2 : PMC 1 1, Rounds 2 1 0 1 (fun _ => XF.fin 0) [S0, S1] S2 ∧ XF.nan ∉ S2.weights ∧
    importanceSample 2 (fun _ => XF.fin 0) 4 false [exWide, exWide] S0 = .done S2 ∧ S2.samples.length = 4 := by
  obtain ⟨S0, S1, S2, h1, h2, h3, x, x', h4, -⟩ := wide_run
  exact ⟨S0, S1, S2, h1, h2, h3, by rw [h4]; rfl⟩

end PMC
end Verif
