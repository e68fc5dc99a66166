import Verif.Proof.Nested

/-!
# Nested sampling: C53, C54, C55, C56, C86
-/

set_option linter.unusedSectionVars false
set_option autoImplicit false

namespace Verif
namespace Nested

variable {d : ℕ} {c : Cfg d}

/-- Invariants of a call. -/
theorem importance_inv (I : ℕ → Nest d → Prop)
    (hI : ∀ j (S S' : Nest d), I j S → S'.live = S.live → S'.own = S.own → S'.view = S.view → S'.L = S.L → I j S')
    {n : ℕ} {env : ℕ → Env d} {idx : ℕ → ℕ} {S : Nest d}
    (hstep : ∀ i < n - S.samples.length, ∀ (T : Nest d) p k x x' y, I i T → StepSpec c (env i) T p k x x' y →
      ((env i).expired = false → (∀ t ∈ (env i).tries, t.late = false) → c.target x ≤ c.target y) → I (i + 1) p.1)
    (h0 : I 0 S) :
    (∀ S', importanceSample c n env idx S = .done S' → I (n - S.samples.length) S' ∧
      S'.weights = finalWeights c.N S'.L ∧ S'.samples ≠ []) ∧
    (∀ e S', importanceSample c n env idx S = .raised e S' → ∃ j ≤ n - S.samples.length, I j S') := by
  have key := forN_inv (f := fun i => step c (env i))
    (I := fun i (p : Nest d × List ℝ) => I i p.1 ∧ p.2 = p.1.live.map c.target)
    (R := fun p => ∃ j ≤ n - S.samples.length, I j p.1) (J := fun _ => True) (n - S.samples.length) (by
      intro i hi p hp
      obtain ⟨T, vals⟩ := p
      obtain ⟨h1, h2⟩ := hp
      simp only at h1 h2
      subst h2
      cases hs : step c (env i) (T, T.live.map c.target) with
      | running q => trivial
      | raised e q =>
        cases hl : T.live.map c.target with
        | nil =>
          rw [hl] at hs
          simp only [step] at hs
          cases hs
          exact ⟨i, hi.le, h1⟩
        | cons v vs =>
          rw [hl] at hs
          simp only [step] at hs
          split at hs
          · cases hs
          · rename_i hr
            exact absurd hr (resample_no_raise _ _ _ _ _ _)
          · cases hs
      | done q =>
        obtain ⟨k, x, x', y, h3, h4, -⟩ := step_done hs
        exact ⟨hstep i hi T q k x x' y h1 h3 h4, h3.vals⟩)
    ({ S with numPi := S.numPi + S.live.length }, S.live.map c.target) ⟨hI 0 S _ h0 rfl rfl rfl rfl, rfl⟩
  unfold importanceSample
  revert key
  cases forN (fun i => step c (env i)) (n - S.samples.length)
      ({ S with numPi := S.numPi + S.live.length }, S.live.map c.target) with
  | running p =>
    intro _
    exact ⟨fun S' h => (by cases h), fun e S' h => (by cases h)⟩
  | raised e p =>
    intro hk
    refine ⟨fun S' h => (by cases h), fun e' S' h => ?_⟩
    cases h
    exact hk
  | done p =>
    rintro ⟨hk, -⟩
    simp only
    split
    · refine ⟨fun S' h => (by cases h), fun e' S' h => ?_⟩
      cases h
      exact ⟨_, le_refl _, hk⟩
    · rename_i hne
      generalize hu : MHast.updateModel c.nKde idx _ = o
      cases o with
      | error e =>
        refine ⟨fun S' h => (by cases h), fun e' S' h => ?_⟩
        cases h
        exact ⟨_, le_refl _, hI _ p.1 _ hk rfl rfl rfl rfl⟩
      | ok m =>
        refine ⟨fun S' h => ?_, fun e' S' h => (by cases h)⟩
        cases h
        exact ⟨hI _ p.1 _ hk rfl rfl rfl rfl, rfl, hne⟩

/-- Invariants of objects. -/
theorem reach_inv {P : (ℕ → Env d) → Prop} (I : Nest d → Prop)
    (hI : ∀ (S S' : Nest d), I S → S'.live = S.live → S'.own = S.own → S'.view = S.view → S'.L = S.L → I S')
    (hnew : ∀ us : Fin c.N → Fin d → ℝ, (∀ k i, 0 ≤ us k i ∧ us k i < 1) → I (reset c us))
    (hstep : ∀ env, P env → ∀ i (T : Nest d) p k x x' y, I T → StepSpec c (env i) T p k x x' y →
      ((env i).expired = false → (∀ t ∈ (env i).tries, t.late = false) → c.target x ≤ c.target y) → I p.1)
    {S : Nest d} (h : Reach c P S) : I S := by
  induction h with
  | new us hus => exact hnew us hus
  | @isDone S S' n env idx _ hP he ih =>
    exact ((importance_inv (fun _ => I) (fun _ => hI) (fun i _ => hstep env hP i) ih).1 S' he).1
  | @isRaised S S' n env idx e _ hP he ih =>
    obtain ⟨_, _, h⟩ := (importance_inv (fun _ => I) (fun _ => hI) (fun i _ => hstep env hP i) ih).2 e S' he
    exact h

theorem samples_congr {S S' : Nest d} (h1 : S'.live = S.live) (h2 : S'.own = S.own) (h3 : S'.view = S.view) :
    S'.samples = S.samples := by
  unfold Nest.samples
  rw [h1, h2, h3]

/-- **C53**. As long as no clock reading is past the timeout, the recorded likelihoods of the discarded points never
decrease, also across calls and resets, there are always `N` live points, and all of them are at least as likely as
every discarded point. -/
theorem C53_nested {S : Nest d} (h : Reach c NoTimeout S) :
    S.live.length = c.N ∧ S.L.Pairwise (· ≤ ·) ∧ ∀ l ∈ S.L, ∀ x ∈ S.live, l ≤ c.target x := by
  refine reach_inv (fun S => S.live.length = c.N ∧ S.L.Pairwise (· ≤ ·) ∧ ∀ l ∈ S.L, ∀ x ∈ S.live, l ≤ c.target x)
    ?_ ?_ ?_ h
  · rintro S S' hS h1 - - h4
    rw [h1, h4]
    exact hS
  · intro us _
    exact ⟨by simp [reset], List.Pairwise.nil, by simp [reset]⟩
  · rintro env henv i T p k x x' y ⟨h1, h2, h3⟩ hs hle
    have hle := hle (henv i).1 (henv i).2
    refine ⟨by rw [hs.live, List.length_set, h1], ?_, ?_⟩
    · rw [hs.L, List.pairwise_append]
      refine ⟨h2, List.pairwise_singleton _ _, ?_⟩
      intro a ha b hb
      rw [List.mem_singleton.1 hb]
      exact h3 a ha x hs.x_mem
    · intro l hl z hz
      rw [hs.live] at hz
      rw [hs.L] at hl
      rcases List.mem_or_eq_of_mem_set hz with hz | rfl
      · rcases List.mem_append.1 hl with hl | hl
        · exact h3 l hl z hz
        · rw [List.mem_singleton.1 hl]
          exact hs.least z hz
      · rcases List.mem_append.1 hl with hl | hl
        · exact (h3 l hl x hs.x_mem).trans hle
        · rw [List.mem_singleton.1 hl]
          exact hle

/-- **C53**, one sample more: its recorded likelihood is the least one among the live points, which stay as they are
except that one point of least likelihood is replaced by a point at least as likely. -/
theorem C53_discard {S S' : Nest d} {env : ℕ → Env d} {idx : ℕ → ℕ} (henv : NoTimeout env)
    (h : importanceSample c (S.samples.length + 1) env idx S = .done S') :
    ∃ k x y, S.live[k]? = some x ∧ (∀ z ∈ S.live, c.target x ≤ c.target z) ∧ S'.L = S.L ++ [c.target x] ∧
      S'.live = S.live.set k y ∧ c.target x ≤ c.target y := by
  have hn : S.samples.length + 1 - S.samples.length = 1 := by omega
  have := (importance_inv (c := c) (n := S.samples.length + 1) (env := env) (idx := idx) (S := S) (fun j T =>
    (j = 0 → T.live = S.live ∧ T.L = S.L) ∧
    (j = 1 → ∃ k x y, S.live[k]? = some x ∧ (∀ z ∈ S.live, c.target x ≤ c.target z) ∧ T.L = S.L ++ [c.target x] ∧
      T.live = S.live.set k y ∧ c.target x ≤ c.target y)) (by
        rintro j T T' hT h1 - - h4
        rw [h1, h4]
        exact hT) (by
        intro i hi T p k x x' y hT hs hle
        rw [hn] at hi
        have hi : i = 0 := by omega
        subst hi
        obtain ⟨h1, h2⟩ := hT.1 rfl
        refine ⟨fun h => by omega, fun _ => ⟨k, x, y, ?_, ?_, ?_, ?_, hle (henv 0).1 (henv 0).2⟩⟩
        · have hk := hs.lt
          have hx := hs.x_eq
          rw [h1] at hk hx
          rw [List.getElem?_eq_getElem hk, ← hx, getD_lt _ _ hk]
        · rw [← h1]; exact hs.least
        · rw [hs.L, h2]
        · rw [hs.live, h1]) ⟨fun _ => ⟨rfl, rfl⟩, fun h => by omega⟩).1 S' h
  exact this.1.2 hn

/-- **C86**, what holds: every returned sample after the first has the likelihood recorded for it, the first one at
least the recorded one (no timeout). -/
theorem C86_partial {S : Nest d} (h : Reach c NoTimeout S) :
    S.samples.length = S.L.length ∧
    (∀ k, 1 ≤ k → ∀ hk : k < S.samples.length, ∀ hk' : k < S.L.length, c.target S.samples[k] = S.L[k]) ∧
    (∀ h0 : 0 < S.samples.length, ∀ h0' : 0 < S.L.length, S.L[0] ≤ c.target S.samples[0]) := by
  refine reach_inv (fun S => S.samples.length = S.L.length ∧
    (∀ k, 1 ≤ k → ∀ hk : k < S.samples.length, ∀ hk' : k < S.L.length, c.target S.samples[k] = S.L[k]) ∧
    (∀ h0 : 0 < S.samples.length, ∀ h0' : 0 < S.L.length, S.L[0] ≤ c.target S.samples[0])) ?_ ?_ ?_ h
  · rintro S S' hS h1 h2 h3 h4
    simp only [samples_congr h1 h2 h3, h4]
    exact hS
  · intro us _
    simp [reset, Nest.samples]
  · rintro env henv i T p k x x' y ⟨h1, h2, h3⟩ hs hle
    have hle := hle (henv i).1 (henv i).2
    simp only [hs.samples, hs.L]
    refine ⟨by simp [h1], ?_, ?_⟩
    · intro j hj hk hk'
      simp only [List.length_append, List.length_singleton] at hk hk'
      by_cases hlt : j < T.samples.length
      · rw [List.getElem_append_left hlt, List.getElem_append_left (by omega)]
        exact h2 j hj hlt (by omega)
      · have he : j = T.samples.length := by omega
        have hne : T.samples ≠ [] := by
          intro h0
          rw [h0] at he
          simp at he
          omega
        rw [List.getElem_append_right (by omega), List.getElem_append_right (by omega)]
        simp [hne]
    · intro h0 h0'
      by_cases hne : T.samples = []
      · have hL : T.L = [] := by
          rw [hne] at h1
          exact List.length_eq_zero_iff.1 h1.symm
        simp only [hne, hL]
        simpa using hle
      · have hp : 0 < T.samples.length := List.length_pos_iff.2 hne
        rw [List.getElem_append_left hp, List.getElem_append_left (by omega)]
        exact h3 hp (by omega)

/-! ### Weights -/

theorem W_pos {N : ℕ} (hN : 0 < N) (i : ℕ) : 0 < W N i := by
  cases i with
  | zero => exact Real.exp_pos _
  | succ i =>
    simp only [W, X, sub_pos]
    apply Real.exp_lt_exp.2
    have : (0 : ℝ) < N := by exact_mod_cast hN
    rw [div_lt_div_iff_of_pos_right this]
    push_cast
    linarith

theorem W_sum (N n : ℕ) : ∑ i ∈ Finset.range (n + 1), W N i = 2 - Real.exp (-(n : ℝ) / N) := by
  induction n with
  | zero => simp [W, X]; norm_num
  | succ n ih =>
    rw [Finset.sum_range_succ, ih]
    simp only [W, X]
    ring

/-- **C55** is violated: for every number of live points and at least two samples the prior mass increments add up to
more than the whole prior. -/
theorem C55_refuted {N n : ℕ} (hN : 0 < N) (hn : 2 ≤ n) : 1 < ∑ i ∈ Finset.range n, W N i := by
  obtain ⟨m, rfl⟩ : ∃ m, n = m + 1 := ⟨n - 1, by omega⟩
  rw [W_sum]
  have h1 : (0 : ℝ) < N := by exact_mod_cast hN
  have h2 : (0 : ℝ) < m := by exact_mod_cast (by omega : 0 < m)
  have : Real.exp (-(m : ℝ) / N) < 1 := Real.exp_lt_one_iff.2 (div_neg_of_neg_of_pos (by linarith) h1)
  linarith

/-- **C55**, what holds: the increments are positive, and all but the first one add up to less than one. -/
theorem C55_partial {N : ℕ} (hN : 0 < N) (n : ℕ) :
    (∀ i, 0 < W N i) ∧ ∑ i ∈ Finset.range n, W N (i + 1) < 1 := by
  refine ⟨W_pos hN, ?_⟩
  have h := W_sum N n
  rw [Finset.sum_range_succ'] at h
  have h0 : W N 0 = 1 := by simp [W, X]
  have := Real.exp_pos (-(n : ℝ) / N)
  linarith

theorem sum_of (w : List ℝ) (f : ℕ → ℝ) (h : ∀ i (hi : i < w.length), w[i] = f i) :
    w.sum = ∑ i ∈ Finset.range w.length, f i := by
  have : w = (List.range w.length).map f := by
    apply List.ext_getElem
    · simp
    · intro i h1 h2
      rw [h i h1]
      simp
  conv_lhs => rw [this]
  rfl

theorem finalWeights_spec {N : ℕ} {L : List ℝ} (hN : 0 < N) (hL : ∀ l ∈ L, 0 ≤ l) (hpos : ∃ l ∈ L, 0 < l) :
    ∃ w : List ℝ, finalWeights N L = w.map XF.fin ∧ (∀ a ∈ w, 0 ≤ a) ∧ w.sum = 1 ∧ w.length = L.length ∧ 0 < Z N L ∧
      ∀ i (h : i < w.length) (h' : i < L.length), w[i] * Z N L = L[i] * W N i := by
  have hnn : ∀ a ∈ L.mapIdx (fun i l => l * W N i), 0 ≤ a := by
    intro a ha
    obtain ⟨i, hi, rfl⟩ := List.mem_mapIdx.1 ha
    exact mul_nonneg (hL _ (List.getElem_mem _)) (W_pos hN i).le
  have hZ : 0 < Z N L := by
    obtain ⟨l, hl, hl0⟩ := hpos
    obtain ⟨i, hi, rfl⟩ := List.mem_iff_getElem.1 hl
    have hm : L[i] * W N i ∈ L.mapIdx (fun i l => l * W N i) := List.mem_mapIdx.2 ⟨i, hi, rfl⟩
    exact (mul_pos hl0 (W_pos hN i)).trans_le (List.single_le_sum hnn _ hm)
  refine ⟨L.mapIdx fun i l => l * W N i / Z N L, ?_, ?_, ?_, by simp, hZ, ?_⟩
  · unfold finalWeights
    apply List.ext_getElem
    · simp
    · intro i h1 h2
      simp only [List.getElem_mapIdx, List.getElem_map]
      rw [XF.fin_div_ne _ _ hZ.ne']
  · intro a ha
    obtain ⟨i, hi, rfl⟩ := List.mem_mapIdx.1 ha
    exact div_nonneg (mul_nonneg (hL _ (List.getElem_mem _)) (W_pos hN i).le) hZ.le
  · have : (L.mapIdx fun i l => l * W N i / Z N L) = (L.mapIdx fun i l => l * W N i).map (· / Z N L) := by
      apply List.ext_getElem
      · simp
      · intro i h1 h2
        simp
    rw [this]
    simp only [div_eq_mul_inv]
    rw [List.sum_map_mul_right, List.map_id']
    exact mul_inv_cancel₀ hZ.ne'
  · intro i h h'
    rw [List.getElem_mapIdx]
    field_simp

theorem reach_basic {P : (ℕ → Env d) → Prop} {S : Nest d} (h : Reach c P S) :
    S.live.length = c.N ∧ S.L.length = S.samples.length ∧ (S.L ≠ [] → 0 < c.N) ∧ (∀ l ∈ S.L, ∃ x, l = c.target x) := by
  refine reach_inv (fun S => S.live.length = c.N ∧ S.L.length = S.samples.length ∧ (S.L ≠ [] → 0 < c.N) ∧
    (∀ l ∈ S.L, ∃ x, l = c.target x)) ?_ ?_ ?_ h
  · rintro S S' hS h1 h2 h3 h4
    rw [samples_congr h1 h2 h3, h4, h1]
    exact hS
  · intro us _
    simp [reset, Nest.samples]
  · rintro env _ i T p k x x' y ⟨h1, h2, h3, h4⟩ hs -
    refine ⟨by rw [hs.live, List.length_set, h1], by rw [hs.L, hs.samples]; simp [h2], fun _ => ?_, ?_⟩
    · have := hs.lt
      omega
    · intro l hl
      rw [hs.L] at hl
      rcases List.mem_append.1 hl with hl | hl
      · exact h4 l hl
      · exact ⟨x, List.mem_singleton.1 hl⟩

/-- **C54**. Whatever the clock does, `importance_sample(n)` returns exactly `max n (previous size)` samples, at least
one, with the earlier samples as prefix. With a nonnegative target and some positive recorded likelihood there is one
nonnegative weight per sample, they add up to 1 and are proportional to recorded likelihood times prior mass increment. -/
theorem C54_nested {P : (ℕ → Env d) → Prop} {S S' : Nest d} (hS : Reach c P S) {n : ℕ} {env : ℕ → Env d} (henv : P env)
    {idx : ℕ → ℕ} (h : importanceSample c n env idx S = .done S') :
    S'.samples.length = max n S.samples.length ∧ S'.samples ≠ [] ∧ S.samples <+: S'.samples ∧ S.L <+: S'.L ∧
    ((∀ x, 0 ≤ c.target x) → (∃ l ∈ S'.L, 0 < l) →
      ∃ w : List ℝ, S'.weights = w.map XF.fin ∧ w.length = S'.samples.length ∧ (∀ a ∈ w, 0 ≤ a) ∧ w.sum = 1 ∧
        ∃ z, 0 < z ∧ ∀ i (hi : i < w.length) (hi' : i < S'.L.length), w[i] * z = S'.L[i] * W c.N i) := by
  have h1 := (importance_inv (c := c) (n := n) (env := env) (idx := idx) (S := S) (fun j T =>
    (∃ new, T.samples = S.samples ++ new ∧ new.length = j) ∧ ∃ new, T.L = S.L ++ new) (by
      rintro j T T' hT h1 h2 h3 h4
      rw [samples_congr h1 h2 h3, h4]
      exact hT) (by
      rintro i - T p k x x' y ⟨⟨new, e1, e2⟩, ⟨new', e3⟩⟩ hs -
      refine ⟨⟨new ++ [if T.samples = [] then y else x], ?_, by simp [e2]⟩, ⟨new' ++ [c.target x], ?_⟩⟩
      · rw [hs.samples, ← List.append_assoc, ← e1]
      · rw [hs.L, ← List.append_assoc, ← e3]) ⟨⟨[], by simp, rfl⟩, ⟨[], by simp⟩⟩).1 S' h
  obtain ⟨⟨⟨new, e1, e2⟩, ⟨new', e3⟩⟩, hw, hne⟩ := h1
  obtain ⟨-, b2, b3, b4⟩ := reach_basic (hS.isDone henv h)
  refine ⟨by rw [e1, List.length_append, e2]; omega, hne, ⟨new, e1.symm⟩, ⟨new', e3.symm⟩, ?_⟩
  intro hnn hpos
  have hL0 : S'.L ≠ [] := by
    obtain ⟨l, hl, -⟩ := hpos
    exact List.ne_nil_of_mem hl
  obtain ⟨w, f1, f2, f3, f4, f5, f6⟩ := finalWeights_spec (b3 hL0) (fun l hl => by
    obtain ⟨x, rfl⟩ := b4 l hl
    exact hnn x) hpos
  exact ⟨w, hw.trans f1, f4.trans b2, f2, f3, _, f5, f6⟩

/-- **C55**, what the caller sees: where the target is constant, the first of any number of samples gets more than half
of the total weight, for every number of live points. -/
theorem C55_half {P : (ℕ → Env d) → Prop} {S S' : Nest d} (hS : Reach c P S) {n : ℕ} {env : ℕ → Env d} (henv : P env)
    {idx : ℕ → ℕ} (h : importanceSample c n env idx S = .done S') {t : ℝ} (ht : 0 < t) (hc : ∀ x, c.target x = t) :
    ∃ w : List ℝ, S'.weights = w.map XF.fin ∧ ∃ h0 : 0 < w.length, 1 / 2 < w[0] := by
  obtain ⟨-, hne, -, -, hw⟩ := C54_nested hS henv h
  obtain ⟨-, b2, b3, b4⟩ := reach_basic (hS.isDone henv h)
  have hlen : 0 < S'.L.length := by rw [b2]; exact List.length_pos_iff.2 hne
  have hLt : ∀ l ∈ S'.L, l = t := fun l hl => by
    obtain ⟨x, rfl⟩ := b4 l hl
    exact hc x
  obtain ⟨w, w1, w2, w3, w4, z, z1, z2⟩ := hw (fun x => by rw [hc]; exact ht.le)
    ⟨S'.L[0], List.getElem_mem _, by rw [hLt _ (List.getElem_mem _)]; exact ht⟩
  have hwl : w.length = S'.L.length := by rw [w2, b2]
  refine ⟨w, w1, by omega, ?_⟩
  have hN := b3 (List.length_pos_iff.1 hlen)
  -- the total
  have htot : z = t * (2 - Real.exp (-((S'.L.length - 1 : ℕ) : ℝ) / c.N)) := by
    have h1 : w.sum * z = t * ∑ i ∈ Finset.range S'.L.length, W c.N i := by
      rw [sum_of w (fun i => t / z * W c.N i) (fun i hi => by
        have := z2 i hi (by omega)
        rw [hLt _ (List.getElem_mem _)] at this
        field_simp
        linarith), hwl, ← Finset.mul_sum]
      field_simp
    obtain ⟨m, hm⟩ : ∃ m, S'.L.length = m + 1 := ⟨S'.L.length - 1, by omega⟩
    rw [w4, one_mul, hm, W_sum] at h1
    rw [hm, Nat.add_sub_cancel]
    exact h1
  have h0 := z2 0 (by omega) hlen
  rw [hLt _ (List.getElem_mem _)] at h0
  have hW : W c.N 0 = 1 := by simp [W, X]
  rw [hW, mul_one] at h0
  have hexp := Real.exp_pos (-((S'.L.length - 1 : ℕ) : ℝ) / c.N)
  rw [htot] at h0
  have : w[0]'(by omega) * (2 - Real.exp (-((S'.L.length - 1 : ℕ) : ℝ) / c.N)) = 1 := by
    have := mul_right_cancel₀ ht.ne' (show (w[0]'(by omega) * (2 - Real.exp (-((S'.L.length - 1 : ℕ) : ℝ) / c.N))) * t = 1 * t by linarith)
    exact this
  by_contra hlt
  have h3 : (0 : ℝ) ≤ w[0]'(by omega) := w3 _ (List.getElem_mem (n := 0) (by omega))
  nlinarith [w3]

/-! ### Where the samples are -/

/-- **C56**, what holds: a target that is positive in the search space and not positive outside keeps all live points
and samples inside (no timeout). -/
theorem C56_partial (hbox : ∀ i, c.lo i ≤ c.hi i) (hin : ∀ x, InBox c.lo c.hi x → 0 < c.target x)
    (hout : ∀ x, ¬ InBox c.lo c.hi x → c.target x ≤ 0) {S : Nest d} (h : Reach c NoTimeout S) :
    (∀ x ∈ S.live, InBox c.lo c.hi x) ∧ ∀ x ∈ S.samples, InBox c.lo c.hi x := by
  refine reach_inv (fun S => (∀ x ∈ S.live, InBox c.lo c.hi x) ∧ ∀ x ∈ S.samples, InBox c.lo c.hi x) ?_ ?_ ?_ h
  · rintro S S' hS h1 h2 h3 -
    rw [samples_congr h1 h2 h3, h1]
    exact hS
  · intro us hus
    refine ⟨?_, by simp [reset, Nest.samples]⟩
    intro x hx
    simp only [reset, List.mem_ofFn] at hx
    obtain ⟨k, rfl⟩ := hx
    intro i
    have h1 := hus k i
    have h2 := hbox i
    constructor <;> nlinarith
  · rintro env henv i T p k x x' y ⟨h1, h2⟩ hs hle
    have hle := hle (henv i).1 (henv i).2
    have hy : InBox c.lo c.hi y := by
      by_contra hc
      exact absurd ((hin x (h1 x hs.x_mem)).trans_le hle) (not_lt.2 (hout y hc))
    constructor
    · intro z hz
      rw [hs.live] at hz
      rcases List.mem_or_eq_of_mem_set hz with hz | rfl
      · exact h1 z hz
      · exact hy
    · intro z hz
      rw [hs.samples] at hz
      rcases List.mem_append.1 hz with hz | hz
      · exact h2 z hz
      · rw [List.mem_singleton.1 hz]
        split
        · exact hy
        · exact h1 x hs.x_mem

/-- One live point on `[0,2]`, target `(x - 1)^2`. -/
noncomputable def exCfg : Cfg 1 := ⟨![0], ![2], fun x => (x 0 - 1) ^ 2, 1, 1⟩

theorem ex_run : ∃ S' : Nest 1, importanceSample exCfg 2
    (fun i => if i = 0 then ⟨0, ![1], false, [⟨![4], false⟩]⟩ else ⟨0, ![0], false, [⟨![0], false⟩]⟩) (fun _ => 0)
    (reset exCfg fun _ _ => 0) = .done S' ∧ S'.samples = [![4], ![4]] ∧ S'.L = [1, 9] := by
  have h0 : (fun _ : Fin 1 => (0 : ℝ)) = ![0] := by funext i; fin_cases i; rfl
  have hr : reset exCfg (fun _ _ => 0) = ⟨[![0]], [], none, [], [], none, 0, 0, 0⟩ := by
    simp [reset, exCfg, h0]
  have c1 : clip ![(0 : ℝ)] ![2] ![1] = ![1] := by funext i; fin_cases i; simp [clip]
  have c2 : clip ![(0 : ℝ)] ![2] ![4] = ![2] := by funext i; fin_cases i; simp [clip]; norm_num
  have s0 : step exCfg ⟨0, ![1], false, [⟨![4], false⟩]⟩ (⟨[![0]], [], none, [], [], none, 1, 0, 0⟩, [1]) =
      .done (⟨[![4]], [], some 0, [1], [], none, 3, 0, 2⟩, [9]) := by
    norm_num [step, exCfg, resample, whileScript, Nest.samples, addSample, minOf, count,
      List.idxOf, List.findIdx, List.findIdx.go, c1, c2]
  have s1 : step exCfg ⟨0, ![0], false, [⟨![0], false⟩]⟩ (⟨[![4]], [], some 0, [1], [], none, 3, 0, 2⟩, [9]) =
      .done (⟨[![4]], [![4], ![4]], none, [1, 9], [], none, 5, 0, 4⟩, [9]) := by
    norm_num [step, exCfg, resample, whileScript, Nest.samples, addSample, minOf, count,
      List.idxOf, List.findIdx, List.findIdx.go, c1, c2]
  have ht : [![(0 : ℝ)]].map exCfg.target = [1] := by norm_num [exCfg]
  rw [hr]
  simp [importanceSample, forN, s0, s1, Nest.samples, ht, MHast.updateModel]
  simp [exCfg]

/-- **C56** is violated: candidates after the first are not clipped. From the live point 0 the candidate 1 is too
unlikely, the next one, 4, is taken, and becomes the second sample (it also shows up as the first, see C86). -/
theorem C56_refuted : ∃ (c : Cfg 1) (us : Fin c.N → Fin 1 → ℝ) (env : ℕ → Env 1) (S' : Nest 1),
    (∀ k i, 0 ≤ us k i ∧ us k i < 1) ∧ NoTimeout env ∧ importanceSample c 2 env (fun _ => 0) (reset c us) = .done S' ∧
    ∃ x ∈ S'.samples, ¬ InBox c.lo c.hi x := by
  obtain ⟨S', h1, h2, -⟩ := ex_run
  refine ⟨exCfg, fun _ _ => 0, fun i => if i = 0 then ⟨0, ![1], false, [⟨![4], false⟩]⟩ else ⟨0, ![0], false, [⟨![0], false⟩]⟩,
    S', by simp, ?_, h1, ![4], by simp [h2], ?_⟩
  · intro i
    by_cases h : i = 0 <;> simp [h]
  · intro h
    have := (h 0).2
    norm_num [exCfg] at this

/-- `C53_nested`, `C54_nested` at an object with two samples. -/
example : ∃ S : Nest 1, Reach exCfg NoTimeout S ∧ S.L = [1, 9] := by
  obtain ⟨S', h1, -, h3⟩ := ex_run
  refine ⟨S', (Reach.new _ (by simp)).isDone ?_ h1, h3⟩
  intro i
  by_cases h : i = 0 <;> simp [h]

/-- A target as in `C56_partial`. -/
example : ∃ t : (Fin 1 → ℝ) → ℝ, (∀ x, InBox ![0] ![1] x → 0 < t x) ∧ ∀ x, ¬ InBox ![0] ![1] x → t x ≤ 0 := by
  classical
  exact ⟨fun x => if InBox ![0] ![1] x then 1 + x 0 else 0, fun x h => by
    have := (h 0).1
    simp only [h, if_true]
    simp at this
    linarith, fun x h => by simp [h]⟩

/-- **C86** is violated: the first returned sample is overwritten by the point that replaces it among the live points.
The discarded point was 0 with likelihood 0, the caller gets 1 with likelihood 1. -/
theorem C86_refuted : ∃ (c : Cfg 1) (us : Fin c.N → Fin 1 → ℝ) (env : ℕ → Env 1) (S' : Nest 1),
    (∀ k i, 0 ≤ us k i ∧ us k i < 1) ∧ NoTimeout env ∧ importanceSample c 1 env (fun _ => 0) (reset c us) = .done S' ∧
    (reset c us).live = [![0]] ∧ S'.samples = [![1]] ∧ S'.L = [0] ∧ c.target ![1] = 1 := by
  have hrun : ∃ S' : Nest 1, importanceSample ⟨![0], ![1], fun x => x 0, 1, 1⟩ 1 (fun _ => ⟨0, ![1], false, []⟩) (fun _ => 0)
      (reset ⟨![0], ![1], fun x => x 0, 1, 1⟩ fun _ _ => 0) = .done S' ∧ S'.samples = [![1]] ∧ S'.L = [0] := by
    simp [importanceSample, reset, forN, step, resample, whileScript, Nest.samples, addSample, minOf, count, clip,
      MHast.updateModel, List.idxOf, List.findIdx, List.findIdx.go]
    rw [if_neg (by norm_num)]
    refine ⟨_, rfl, ?_, rfl⟩
    simp
    funext i
    fin_cases i
    simp [clip]
  obtain ⟨S', h1, h2, h3⟩ := hrun
  refine ⟨⟨![0], ![1], fun x => x 0, 1, 1⟩, fun _ _ => 0, fun _ => ⟨0, ![1], false, []⟩, S', by simp, by simp [NoTimeout], h1,
    ?_, h2, h3, by simp⟩
  simp [reset]
  funext i
  fin_cases i
  rfl

end Nested
end Verif
