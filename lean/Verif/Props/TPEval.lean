import Verif.Props.TPDensity
import Verif.Model.TPEval

/-!
# C153: the density of a tree pyramid is evaluated at the points passed
-/

set_option linter.unusedSectionVars false
set_option autoImplicit false

namespace Verif

open TPTree MeasureTheory

variable {K : Type*} [Field K] [LinearOrder K] [IsStrictOrderedRing K] {d : ℕ}

namespace TPTree

theorem likelihood_row (T : TPTree K d) (x : Pt K d) : T.likelihood x = T.prob1 x := by
  unfold likelihood prob1
  rw [if_pos (show fits d d from Or.inl rfl)]
  have h : ∀ (c : Pt K d) (r : K), inBox x c r = decide (∀ i, c i - r < x i ∧ x i < c i + r) := by
    intro c r
    unfold inBox
    rw [dif_pos rfl]
    rfl
  simp only [h]
  rfl

theorem likelihood_number (T : TPTree K d) (v : K) : T.likelihood (fun _ : Fin 1 => v) = T.prob1 fun _ => v := by
  unfold likelihood prob1
  rw [if_pos (show fits 1 d from Or.inr (Or.inl rfl))]
  have h : ∀ (c : Pt K d) (r : K), inBox (fun _ : Fin 1 => v) c r = decide (∀ i, c i - r < v ∧ v < c i + r) := by
    intro c r
    unfold inBox
    split
    · rfl
    · simp
  simp only [h]
  rfl

theorem llikelihood_eq {m : ℕ} (T : TPTree K d) (s : Fin m → K) : T.llikelihood s = T.likelihood s := rfl

end TPTree

theorem mapM_ok {α β : Type*} {f : α → Except PyErr β} {g : α → β} (h : ∀ a, f a = .ok (g a)) : ∀ l : List α, l.mapM f = .ok (l.map g)
  | [] => rfl
  | a :: l => by
    rw [List.mapM_cons, h, mapM_ok h l]
    rfl

/-- **C153** (partial: points passed as rows of a matrix with `d` columns, or as a flat array in dimension one). After the update of
the model the numbers returned by `prob` are the values of one probability density at the points passed, `log_prob` returns their
logarithms, and arrays that are neither flat nor matrices are refused. -/
theorem C153_partial {dmin dmax : Pt ℝ d} (hlt : ∀ i, dmin i < dmax i) {ops : List (TPOp ℝ d)}
    {S S' : TPSampler ℝ d} {e : ℕ} (h : TPReach dmin dmax ops S.T e) (w : ℕ → ℝ)
    (hw : ∀ p ∈ S.T.leaves, S.T.weights[p]? = some (XF.fin (w p))) (hw0 : ∀ p ∈ S.T.leaves, 0 ≤ w p)
    (hpos : 0 < (S.T.leaves.map w).sum) (hup : S.updateModel = .ok S') :
    ∃ f : Pt ℝ d → ℝ, (∀ x, 0 ≤ f x) ∧ ∫ x, f x = 1 ∧
      (∀ rows : List (Fin d → ℝ), S'.T.prob (.mat d rows) = .ok (rows.map fun x => XF.fin (f x)) ∧
        S'.T.logProb (.mat d rows) = .ok (rows.map fun x => if f x = 0 then XF.ninf else XF.fin (Real.log (f x)))) ∧
      (d = 1 → ∀ xs : List ℝ, S'.T.prob (.vec xs) = .ok (xs.map fun v => XF.fin (f fun _ => v)) ∧
        S'.T.logProb (.vec xs) = .ok (xs.map fun v => if f (fun _ => v) = 0 then XF.ninf else XF.fin (Real.log (f fun _ => v)))) ∧
      S'.T.prob .other = .error .value ∧ S'.T.logProb .other = .error .value := by
  obtain ⟨f, hf, hf0, -, hf1⟩ := C28_prob_integrates hlt h w hw hw0 hpos hup
  have hlog : ∀ x, XF.log (XF.fin (f x)) = if f x = 0 then XF.ninf else XF.fin (Real.log (f x)) := fun x => by
    show (if f x < 0 then _ else _) = _
    rw [if_neg (not_lt.2 (hf0 x))]
  refine ⟨f, hf0, hf1, fun rows => ?_, fun _ xs => ?_, rfl, rfl⟩
  · have h1 : rows.mapM S'.T.likelihood = .ok (rows.map fun x => XF.fin (f x)) :=
      mapM_ok (fun x => by rw [likelihood_row, hf]) rows
    refine ⟨h1, ?_⟩
    show (rows.mapM S'.T.likelihood).map (List.map XF.log) = _
    rw [h1]
    simp [Except.map, hlog]
  · have h1 : (xs.mapM fun v => S'.T.likelihood fun _ : Fin 1 => v) = .ok (xs.map fun v => XF.fin (f fun _ => v)) :=
      mapM_ok (fun v => by rw [likelihood_number, hf]) xs
    refine ⟨h1, ?_⟩
    show (xs.mapM fun v => S'.T.likelihood fun _ : Fin 1 => v).map (List.map XF.log) = _
    rw [h1]
    simp [Except.map, hlog]

/-- The hypotheses are met by the tree of a single weighed root. -/
example : ∃ (S : TPSampler ℝ 1) (S' : TPSampler ℝ 1) (w : ℕ → ℝ), (∀ i, (![0] : Pt ℝ 1) i < (![1] : Pt ℝ 1) i) ∧
    TPReach ![0] ![1] [.weigh 0 (fun _ => XF.fin 2) (fun _ => XF.fin 1)] S.T 0 ∧
    (∀ p ∈ S.T.leaves, S.T.weights[p]? = some (XF.fin (w p))) ∧ (∀ p ∈ S.T.leaves, 0 ≤ w p) ∧
    0 < (S.T.leaves.map w).sum ∧ S.updateModel = .ok S' := by
  have h : ∃ T, TPReach (K := ℝ) (d := 1) ![0] ![1] [.weigh 0 (fun _ => XF.fin 2) (fun _ => XF.fin 1)] T 0 ∧
      T.leaves = [0] ∧ T.weights = [XF.fin 2 / XF.fin 1] ∧ T.leavesIdx = [true] ∧ T.centers.length = 1 ∧
      T.radii.length = 1 := ⟨_, ⟨_, rfl, rfl⟩, rfl, rfl, rfl, rfl, rfl⟩
  obtain ⟨T, hT, hl, hw, hm, hc, hr⟩ := h
  have hw' : T.weights = [XF.fin 2] := by rw [hw, XF.fin_div_ne _ _ one_ne_zero]; simp
  obtain ⟨c, hc⟩ := List.length_eq_one_iff.1 hc
  obtain ⟨r, hr⟩ := List.length_eq_one_iff.1 hr
  refine ⟨⟨T, 0, 0, 0, ([], [])⟩, ⟨T.selfNormalize, 0, 0, 0, ([(c, r)], (normWeights (cleanWeights [XF.fin 2])))⟩,
    fun _ => 2, ?_, hT, ?_, ?_, ?_, ?_⟩
  · intro i; fin_cases i; simp
  · simp [hl, hw']
  · simp
  · simp [hl]
  · simp [TPSampler.updateModel, hm, hc, hr, hw', maskSelect, setWeights, Except.map]

/-- What happens to flat arrays: whatever the tree, `prob` returns one number for every number passed,
the value at the point with all coordinates equal to that number. -/
theorem C153_flat (T : TPTree K d) (xs : List K) :
    T.prob (.vec xs) = xs.mapM (fun v => T.prob (.mat d [fun _ => v])) >>= fun r => .ok r.flatten := by
  have h : ∀ v, T.prob (.mat d [fun _ => v]) = (T.prob1 fun _ => v).map fun r => [r] := by
    intro v
    show [fun _ : Fin d => v].mapM T.likelihood = _
    rw [List.mapM_cons, likelihood_row]
    cases T.prob1 (fun _ : Fin d => v) <;> rfl
  have h2 : T.prob (.vec xs) = xs.mapM fun v => T.prob1 fun _ => v := by
    unfold TPTree.prob
    simp only [likelihood_number]
  rw [h2]
  clear h2
  simp only [h]
  induction xs with
  | nil => rfl
  | cons v xs ih =>
    rw [List.mapM_cons, List.mapM_cons]
    cases T.prob1 fun _ => v with
    | error e => rfl
    | ok r =>
      have e1 : ∀ (m : Except PyErr (List (XF K))), (do let a ← Except.ok r; let b ← m; pure (a :: b)) = m.map (r :: ·) := by
        intro m; cases m <;> rfl
      rw [e1, ih]
      cases xs.mapM fun v => (T.prob1 fun _ => v).map fun r => [r] <;> rfl

/-- Which matrices are refused, for every tree: with a number of columns other than the dimension, those with several columns in
several dimensions. In one dimension no number of columns is refused: a row that repeats one number is taken for that number. -/
theorem C153_columns :
    (∀ (T : TPTree K d) (m : ℕ) (s : Fin m → K) (rows : List (Fin m → K)), m ≠ d → m ≠ 1 → d ≠ 1 →
      T.prob (.mat m (s :: rows)) = .error .value) ∧
    ∀ (T : TPTree K 1) (m : ℕ) (v : K), T.prob (.mat (m + 1) [fun _ => v]) = T.prob (.mat 1 [fun _ => v]) := by
  refine ⟨fun T m s rows h1 h2 h3 => ?_, fun T m v => ?_⟩
  · show (s :: rows).mapM T.likelihood = _
    have h : T.likelihood s = .error .value := by
      unfold likelihood
      rw [if_neg (by unfold fits; tauto)]
    rw [List.mapM_cons, h]
    rfl
  · show [fun _ : Fin (m + 1) => v].mapM T.likelihood = [fun _ : Fin 1 => v].mapM T.likelihood
    have h : T.likelihood (fun _ : Fin (m + 1) => v) = T.likelihood fun _ : Fin 1 => v := by
      unfold likelihood
      rw [if_pos (show fits (m + 1) 1 from Or.inr (Or.inr rfl)), if_pos (show fits 1 1 from Or.inl rfl)]
      have hb : ∀ (c : Pt K 1) (r : K), inBox (fun _ : Fin (m + 1) => v) c r = inBox (fun _ : Fin 1 => v) c r := by
        intro c r
        unfold inBox
        rw [dif_pos (rfl : (1 : ℕ) = 1)]
        split
        · rfl
        · simp
      simp only [hb]
    rw [List.mapM_cons, List.mapM_cons, h]
    rfl

/-- **C153** is false in two dimensions: the unit square is split once and its quarters have weights 1, 2, 3 and 4. The point
(1/4, 3/4), whose density is 8, is passed as a flat array: the answer is the two numbers 4 and 16, the densities at (1/4, 1/4) and
(3/4, 3/4). A matrix with a single column is not refused either. -/
theorem C153_refuted : ∃ T e, TPReach (K := ℚ) (d := 2) (fun _ => 0) (fun _ => 1)
      [.expand 0 none 5, .weigh 1 (fun _ => XF.fin 1) (fun _ => XF.fin 1), .weigh 2 (fun _ => XF.fin 2) (fun _ => XF.fin 1),
        .weigh 3 (fun _ => XF.fin 3) (fun _ => XF.fin 1), .weigh 4 (fun _ => XF.fin 4) (fun _ => XF.fin 1)] T e ∧
    decide ((T.prob (.mat 2 [![1/4, 3/4]])).toOption = some [XF.fin 8] ∧
      (T.prob (.vec [1/4, 3/4])).toOption = some [XF.fin 4, XF.fin 16] ∧
      (T.prob (.mat 1 [![1/4]])).toOption = some [XF.fin 4] ∧
      (T.prob (.mat 3 [![1/4, 3/4, 1/4]])).toOption = none) = true :=
  of_reachCheck (by decide +kernel)

end Verif
