import Verif.Proof.AIS

/-!
# Properties C38, C39, C41, C42, C78: deterministic mixture AIS and layered AIS

`qv c x` is the density at `x` of the proposal with mean `c`, assumed positive (normal densities are). Targets are
nonnegative numbers. Everything else (points drawn, multinomial outcomes, Metropolis moves, clock) is arbitrary.
-/

set_option linter.unusedSectionVars false
set_option autoImplicit false

namespace Verif

variable {K : Type*} [Field K] [LinearOrder K] [IsStrictOrderedRing K] {d : ℕ}

/-! ### DM-AIS -/

/-- The states of a DM-AIS object: after construction or reset, and after any call of `importance_sample`, whether it
returned, raised or is still running. Every call may use another target. -/
inductive DM.Reach (N k : ℕ) (lo hi : Fin d → K) (qv : (Fin d → K) → (Fin d → K) → K) : AIS K d → Prop
  | reset (u : ℕ → Fin d → K) (S : AIS K d) (h : AIS.reset N lo hi u = .ok S) : Reach N k lo hi qv S
  | call (S : AIS K d) (hS : Reach N k lo hi qv S) (t : (Fin d → K) → K) (ht : ∀ x, 0 ≤ t x) (n : ℕ) (expired : Bool)
      (script : List (DM.Iter K d)) :
      Reach N k lo hi qv (DM.importanceSample N k (fun c x => XF.fin (qv c x)) (fun x => XF.fin (t x)) n expired script S).state

/-- What holds of every reachable DM-AIS state. -/
structure DM.Good (N : ℕ) (S : AIS K d) : Prop where
  centers : S.centers.length = N
  model : S.modelWeights = List.replicate N (XF.fin (1 / (N : K)))
  weights : ∃ ws : List K, S.weights = ws.map XF.fin ∧ ws.length = S.samples.length ∧ (∀ w ∈ ws, 0 ≤ w) ∧
    (S.samples ≠ [] → 0 < ws.sum)

/-- One iteration from a good state: either it raises because fewer than two samples are drawn or the target vanishes on
the batch (and only counters change), or it appends the batch. -/
theorem DM.body_good {N k : ℕ} (hN : 0 < N) {qv : (Fin d → K) → (Fin d → K) → K} (hq : ∀ c x, 0 < qv c x)
    {t : (Fin d → K) → K} (ht : ∀ x, 0 ≤ t x) (it : DM.Iter K d) (S : AIS K d) (hS : DM.Good N S) :
    let r := DM.body N k (fun c x => XF.fin (qv c x)) (fun x => XF.fin (t x)) it S
    DM.Good N r.1 ∧
    ((r.2 = some .value ∧ (N * k = 1 ∨ ∀ i < N, ∀ j < k, t (it.pts i j) = 0) ∧ r.1.samples = S.samples ∧
        r.1.weights = S.weights ∧ r.1.centers = S.centers) ∨
     (r.2 = none ∧ N * k ≠ 1 ∧ (∃ i < N, ∃ j < k, 0 < t (it.pts i j)) ∧ r.1.samples = S.samples ++ AIS.batch N k it.pts ∧
      r.1.weights = S.weights ++ (AIS.batch N k it.pts).map fun x =>
        XF.fin (t x / mixVal qv S.centers N x))) ∧
    r.1.numQ = S.numQ + N * k ∧ r.1.numPi = S.numPi + (if N * k = 1 then 0 else N * k) ∧ r.1.numQEval = S.numQEval := by
  intro r
  obtain ⟨hc, hm, ws, hw1, hw2, hw3, hw4⟩ := hS
  have hr : r = DM.body N k (fun c x => XF.fin (qv c x)) (fun x => XF.fin (t x)) it S := rfl
  unfold DM.body at hr
  simp only [AIS.batch_length] at hr
  by_cases h1 : N * k = 1
  · rw [if_pos h1] at hr
    rw [hr]
    refine ⟨⟨hc, hm, ws, hw1, hw2, hw3, hw4⟩, Or.inl ⟨rfl, Or.inl h1, rfl, rfl, rfl⟩, rfl, ?_, rfl⟩
    simp [h1]
  · rw [if_neg h1] at hr
    have hwe : ((AIS.batch N k it.pts).map (AIS.weigh (fun c x => XF.fin (qv c x)) (fun x => XF.fin (t x))
        { S with numQ := S.numQ + N * k }))
        = ((AIS.batch N k it.pts).map fun x => t x / mixVal qv S.centers N x).map XF.fin := by
      rw [List.map_map]
      apply List.map_congr_left
      intro x _
      unfold AIS.weigh
      rw [AIS.prob_fin qv { S with numQ := S.numQ + N * k } N hc hm]
      exact XF.fin_div_ne _ _ (mixVal_pos qv hq _ N hN hc x).ne'
    rw [hwe] at hr
    set vs := (AIS.batch N k it.pts).map fun x => t x / mixVal qv S.centers N x with hvs
    have hvn : ∀ v ∈ vs, 0 ≤ v := by
      intro v hv
      obtain ⟨x, -, rfl⟩ := List.mem_map.1 hv
      exact div_nonneg (ht x) (mixVal_pos qv hq _ N hN hc x).le
    rcases sum_pos_or_zero vs hvn with hp | hz
    · rw [DM.resample_ok _ _ vs hvn hp] at hr
      simp only at hr
      rw [hr]
      refine ⟨⟨by simp [hc], hm, ws ++ vs, by simp [hw1], ?_, ?_, ?_⟩, Or.inr ⟨rfl, h1, ?_, rfl, ?_⟩, rfl, ?_, rfl⟩
      · simp [hw2, hvs]
      · intro w hw
        rcases List.mem_append.1 hw with hw | hw
        · exact hw3 w hw
        · exact hvn w hw
      · intro _
        rw [List.sum_append]
        have := List.sum_nonneg hw3
        linarith
      · by_contra hcon
        push Not at hcon
        have : vs.sum = 0 := by
          apply List.sum_eq_zero
          intro v hv
          obtain ⟨x, hx, rfl⟩ := List.mem_map.1 hv
          obtain ⟨i, hi, j, hj, rfl⟩ := AIS.mem_batch.1 hx
          rw [le_antisymm (hcon i hi j hj) (ht _), zero_div]
        linarith
      · simp [hvs, Function.comp_def]
      · simp [h1]
    · rw [DM.resample_error _ _ vs hz] at hr
      simp only at hr
      rw [hr]
      refine ⟨⟨hc, hm, ws, hw1, hw2, hw3, hw4⟩, Or.inl ⟨rfl, Or.inr ?_, rfl, rfl, rfl⟩, rfl, ?_, rfl⟩
      · intro i hi j hj
        have := hz _ (List.mem_map.2 ⟨_, AIS.mem_batch.2 ⟨i, hi, j, hj, rfl⟩, rfl⟩)
        rcases div_eq_zero_iff.1 this with h | h
        · exact h
        · exact absurd h (mixVal_pos qv hq _ N hN hc _).ne'
      · simp [h1]

theorem DM.reach_good {N k : ℕ} (hN : 0 < N) {lo hi : Fin d → K} {qv : (Fin d → K) → (Fin d → K) → K}
    (hq : ∀ c x, 0 < qv c x) {S : AIS K d} (h : DM.Reach N k lo hi qv S) : DM.Good N S := by
  induction h with
  | reset u S h =>
    rw [AIS.reset_ok N hN] at h
    cases h
    exact ⟨by simp, rfl, [], rfl, rfl, by simp, by simp⟩
  | call S hS t ht n expired script ih =>
    exact whileScript_inv (DM.Good N) (fun it s hs _ => (DM.body_good hN hq ht it s hs).1) script expired S ih

/-- **C38** Whatever DM-AIS did before, a call of `importance_sample(n)` keeps the earlier samples as a prefix, adds
whole batches of `N*K` samples and keeps one weight per sample; if it returns without having seen a late clock there are
at least `n` samples, and never `N*K` or more beyond what was needed; the returned weights are nonnegative, one per
sample, and sum to 1 as soon as there is a sample. -/
theorem C38_dm_ais {N k : ℕ} (hN : 0 < N) {lo hi : Fin d → K} {qv : (Fin d → K) → (Fin d → K) → K}
    (hq : ∀ c x, 0 < qv c x) {S : AIS K d} (hS : DM.Reach N k lo hi qv S) (t : (Fin d → K) → K) (ht : ∀ x, 0 ≤ t x)
    (n : ℕ) (expired : Bool) (script : List (DM.Iter K d)) :
    let out := DM.importanceSample N k (fun c x => XF.fin (qv c x)) (fun x => XF.fin (t x)) n expired script S
    (∃ new ws, out.state.samples = S.samples ++ new ∧ out.state.weights = S.weights ++ ws ∧ new.length = ws.length ∧
      (∃ m, new.length = m * (N * k)) ∧ (new ≠ [] → (S.samples ++ new).length < n + N * k)) ∧
    (∀ S', out = .done S' → expired = false → (∀ it ∈ script, it.late = false) → n ≤ S'.samples.length) ∧
    (∃ ws : List K, out.state.samples.length = ws.length ∧ (∀ w ∈ ws, 0 ≤ w) ∧
      (out.state.samples ≠ [] → out.state.returned = (out.state.samples, ws.map XF.fin) ∧ ws.sum = 1)) := by
  intro out
  have hg := DM.reach_good hN hq hS
  refine ⟨?_, ?_, ?_⟩
  · have := whileScript_inv (cond := fun S : AIS K d => decide (S.samples.length < n)) (late := DM.Iter.late)
      (body := DM.body N k (fun c x => XF.fin (qv c x)) (fun x => XF.fin (t x)))
      (fun S' => DM.Good N S' ∧ ∃ new ws, S'.samples = S.samples ++ new ∧ S'.weights = S.weights ++ ws ∧
        new.length = ws.length ∧ (∃ m, new.length = m * (N * k)) ∧ (new ≠ [] → (S.samples ++ new).length < n + N * k))
      (by
        rintro it s ⟨hs, new, ws, e1, e2, e3, ⟨m, e4⟩, e5⟩ hc
        simp only [decide_eq_true_eq] at hc
        obtain ⟨g, h, -⟩ := DM.body_good hN hq ht (k := k) it s hs
        refine ⟨g, ?_⟩
        rcases h with ⟨-, -, h1, h2, -⟩ | ⟨-, -, -, h1, h2⟩
        · exact ⟨new, ws, by rw [h1, e1], by rw [h2, e2], e3, ⟨m, e4⟩, e5⟩
        · refine ⟨new ++ AIS.batch N k it.pts, _, by rw [h1, e1, List.append_assoc],
            by rw [h2, e2, List.append_assoc], by simp [e3], ⟨m + 1, ?_⟩, ?_⟩
          · rw [List.length_append, AIS.batch_length, e4]; ring
          · intro _
            rw [← List.append_assoc, ← e1, List.length_append, AIS.batch_length]
            omega)
      script expired S ⟨hg, [], [], by simp, by simp, rfl, ⟨0, by simp⟩, by simp⟩
    exact this.2
  · intro S' hd he hl
    have := whileScript_done (late := DM.Iter.late) hd he hl
    simpa using this
  · obtain ⟨-, -, ws, h1, h2, h3, h4⟩ := DM.reach_good hN hq (DM.Reach.call S hS t ht n expired script)
    refine ⟨ws.map fun w => w / ws.sum, by simp [out, h2], ?_, ?_⟩
    · intro w hw
      obtain ⟨v, hv, rfl⟩ := List.mem_map.1 hw
      exact div_nonneg (h3 v hv) (List.sum_nonneg h3)
    · intro hne
      have := norm_sum_one ws (h4 hne).ne'
      refine ⟨?_, this.2⟩
      unfold AIS.returned
      rw [← this.1]
      show (out.state.samples, out.state.weights.map fun w => w / out.state.weights.sum) = _
      rw [show out.state.weights = ws.map XF.fin from h1]

/-- **C38**, termination: with `N*K ≥ 2` and a positive target value in every batch, the call returns after at most as
many iterations as there are samples missing. -/
theorem C38_terminates {N k : ℕ} (hNk : 2 ≤ N * k) {lo hi : Fin d → K} {qv : (Fin d → K) → (Fin d → K) → K}
    (hq : ∀ c x, 0 < qv c x) {S : AIS K d} (hS : DM.Reach N k lo hi qv S) (t : (Fin d → K) → K) (ht : ∀ x, 0 ≤ t x)
    (n : ℕ) (expired : Bool) (script : List (DM.Iter K d)) (hlen : n - S.samples.length ≤ script.length)
    (hpos : ∀ it ∈ script, ∃ i < N, ∃ j < k, 0 < t (it.pts i j)) :
    ∃ S', DM.importanceSample N k (fun c x => XF.fin (qv c x)) (fun x => XF.fin (t x)) n expired script S = .done S' := by
  have hN : 0 < N := by
    rcases Nat.eq_zero_or_pos N with h | h
    · subst h; simp at hNk
    · exact h
  apply whileScript_terminates (DM.Good N) (fun S => n - S.samples.length)
  · intro it hit s hs hc
    simp only [decide_eq_true_eq] at hc
    obtain ⟨g, h, -⟩ := DM.body_good hN hq ht (k := k) it s hs
    refine ⟨g, ?_⟩
    rcases h with ⟨-, h1, -⟩ | ⟨h1, -, -, h2, -⟩
    · obtain ⟨i, hi, j, hj, hp⟩ := hpos it hit
      rcases h1 with h1 | h1
      · omega
      · exact absurd (h1 i hi j hj) hp.ne'
    · refine ⟨h1, ?_⟩
      rw [h2, List.length_append, AIS.batch_length]
      omega
  · exact DM.reach_good hN hq hS
  · intro _; exact hlen
  · intro s _ hc
    simp only [decide_eq_true_eq] at hc
    omega

/-- A concrete DM-AIS run: two proposals, two samples each, one iteration. -/
def exDM : Except PyErr (List (List ℚ) × List (XF ℚ)) := do
  let S ← AIS.reset (d := 1) 2 ![0] ![1] (fun k => ![(k : ℚ) / 2])
  match DM.importanceSample 2 2 (fun c x => XF.fin (1 / (1 + (x 0 - c 0) ^ 2))) (fun x => XF.fin (max 0 (x 0))) 3 false
    [⟨fun i j => ![(i : ℚ) - j], fun _ j p => decide (1 ≤ p) || (decide (0 < p) && j == 2), false⟩] S with
  | .done S => .ok (S.returned.1.map fun x => [x 0], S.returned.2)
  | _ => .error .timeout

example : exDM = .ok ([[0], [-1], [1], [0]], [XF.fin 0, XF.fin 0, XF.fin 1, XF.fin 0]) := by decide +kernel

/-- **C39** After `resample` of a batch with nonnegative weights of positive sum, every proposal is centred at a sample of
the batch whose weight is positive; number and mixture weights of the proposals are unchanged. `bern` are the outcomes of
the generator: impossible events do not happen and sure events happen. -/
theorem C39_dm_resample (bern : ℕ → ℕ → K → Bool) (h0 : ∀ i j p, p ≤ 0 → bern i j p = false)
    (h1 : ∀ i j p, 1 ≤ p → bern i j p = true) (samples : List (Fin d → K)) (ws : List K)
    (hl : ws.length = samples.length) (hw : ∀ w ∈ ws, 0 ≤ w) (hs : 0 < ws.sum) (S : AIS K d) :
    ∃ S', DM.resample bern samples (ws.map XF.fin) S = (S', none) ∧ S'.centers.length = S.centers.length ∧
      S'.modelWeights = S.modelWeights ∧ S'.samples = S.samples ∧ S'.weights = S.weights ∧
      ∀ c ∈ S'.centers, ∃ i, ∃ hi : i < samples.length, c = samples[i] ∧ 0 < ws[i] := by
  refine ⟨_, DM.resample_ok bern samples ws hw hs S, by simp, rfl, rfl, rfl, ?_⟩
  intro c hc
  obtain ⟨i, -, rfl⟩ := List.mem_map.1 hc
  obtain ⟨j, hj, hp, he⟩ := multinomialGo_spec (bern i) (h0 i) (h1 i) (ws.map fun w => w / ws.sum) 0 1
    (by
      intro p hp
      obtain ⟨a, ha, rfl⟩ := List.mem_map.mp hp
      exact div_nonneg (hw a ha) hs.le)
    (by
      have := sum_map_div ws (fun w => w) ws.sum
      rw [List.map_id'] at this
      rw [this, div_self hs.ne']) one_pos
  have hj' : j < ws.length := by simpa using hj
  refine ⟨j, by omega, ?_, ?_⟩
  · unfold multinomial1
    rw [he, argmaxNat_oneHot _ _ hj, List.getElem?_eq_getElem (by omega)]
    rfl
  · have : 0 < ws[j] / ws.sum := by simpa using hp
    by_contra hn
    have := div_nonpos_of_nonpos_of_nonneg (not_lt.1 hn) hs.le
    linarith

example : (DM.resample (d := 1) (fun _ j p => decide (1 ≤ p) || (decide (0 < p) && j == 1)) [![7], ![8], ![(9 : ℚ)]]
    [XF.fin 0, XF.fin 1, XF.fin 2] ⟨[![0], ![1]], [], [], [], 0, 0, 0⟩).1.centers = [![8], ![8]] := by decide +kernel

/-- **C78 refuted** A batch on which the target vanishes makes DM-AIS raise ValueError, whatever the state, the number of
proposals and samples and the random outcomes: the weights are divided by their sum zero. -/
theorem C78_dm_ais_zero_batch {N k : ℕ} (hN : 0 < N) {lo hi : Fin d → K} {qv : (Fin d → K) → (Fin d → K) → K}
    (hq : ∀ c x, 0 < qv c x) {S : AIS K d} (hS : DM.Reach N k lo hi qv S) (t : (Fin d → K) → K) (ht : ∀ x, 0 ≤ t x)
    (n : ℕ) (hn : S.samples.length < n) (it : DM.Iter K d) (rest : List (DM.Iter K d))
    (hz : ∀ i < N, ∀ j < k, t (it.pts i j) = 0) :
    ∃ S', DM.importanceSample N k (fun c x => XF.fin (qv c x)) (fun x => XF.fin (t x)) n false (it :: rest) S
      = .raised .value S' := by
  unfold DM.importanceSample whileScript
  rw [if_pos (by simp [hn])]
  obtain ⟨-, h, -⟩ := DM.body_good hN hq ht (k := k) it S (DM.reach_good hN hq hS)
  rcases h with ⟨h1, -⟩ | ⟨-, -, ⟨i, hi, j, hj, hp⟩, -⟩
  · generalize DM.body N k (fun c x => XF.fin (qv c x)) (fun x => XF.fin (t x)) it S = r at h1
    obtain ⟨S', e⟩ := r
    simp only at h1
    subst h1
    exact ⟨S', rfl⟩
  · exact absurd (hz i hi j hj) hp.ne'

/-- **C78 refuted**: not every call on a nonnegative target that is positive somewhere avoids raising. -/
theorem C78_refuted : ¬ ∀ (t : (Fin 1 → ℚ) → ℚ), (∀ x, 0 ≤ t x) → (∃ x, 0 < t x) → ∀ (S : AIS ℚ 1),
    DM.Reach 2 2 ![0] ![1] (fun _ _ => 1) S → ∀ n expired script,
      ∀ e S', DM.importanceSample 2 2 (fun _ _ => XF.fin 1) (fun x => XF.fin (t x)) n expired script S ≠ .raised e S' := by
  intro h
  have hr := AIS.reset_ok (d := 1) (K := ℚ) 2 (by norm_num) ![0] ![1] (fun _ => ![0])
  have hS := DM.Reach.reset (k := 2) (qv := fun _ _ => (1 : ℚ)) _ _ hr
  have ht : ∀ x : Fin 1 → ℚ, 0 ≤ (if x 0 = 5 then (1 : ℚ) else 0) := by intro x; split <;> norm_num
  obtain ⟨S', hS'⟩ := C78_dm_ais_zero_batch (N := 2) (k := 2) (by norm_num) (by intros; norm_num) hS
    (fun x => if x 0 = 5 then (1 : ℚ) else 0) ht 1 (by simp) ⟨fun _ _ => ![0], fun _ _ _ => false, false⟩ [] (by
      intro i _ j _; simp)
  exact h _ ht ⟨![5], by simp⟩ _ hS 1 false _ _ _ hS'

/-! ### Layered AIS -/

/-- The states of a layered AIS object. -/
inductive LAIS.Reach (N k L : ℕ) (lo hi : Fin d → K) (q : (Fin d → K) → (Fin d → K) → XF K) : AIS K d → Prop
  | reset (u : ℕ → Fin d → K) (hu : ∀ k i, 0 ≤ u k i ∧ u k i < 1) (S : AIS K d) (h : AIS.reset N lo hi u = .ok S) :
      Reach N k L lo hi q S
  | call (S : AIS K d) (hS : Reach N k L lo hi q S) (target : (Fin d → K) → XF K) (n : ℕ) (expired : Bool)
      (script : List (LAIS.Iter K d)) :
      Reach N k L lo hi q (LAIS.importanceSample N k L lo hi q target n expired script S).state

theorem clip_mem {lo hi : Fin d → K} (h : ∀ i, lo i ≤ hi i) (x : Fin d → K) (i : Fin d) :
    lo i ≤ clip lo hi x i ∧ clip lo hi x i ≤ hi i := by
  unfold clip
  exact ⟨le_min (le_max_right _ _) (h i), min_le_right _ _⟩

/-- Every Metropolis step stays in the box. -/
theorem LAIS.mcmcMh_mem {lo hi : Fin d → K} (h : ∀ i, lo i ≤ hi i) (target : (Fin d → K) → XF K) (L : ℕ)
    (move : ℕ → Fin d → K) (alpha : ℕ → K) (x : Fin d → K) (hx : ∀ i, lo i ≤ x i ∧ x i ≤ hi i) :
    ∀ i, lo i ≤ LAIS.mcmcMh lo hi target L move alpha x i ∧ LAIS.mcmcMh lo hi target L move alpha x i ≤ hi i := by
  unfold LAIS.mcmcMh
  generalize List.range L = l
  induction l generalizing x with
  | nil => exact hx
  | cons a l ih =>
    rw [List.foldl_cons]
    apply ih
    unfold LAIS.mhStep
    split
    · exact clip_mem h _
    · exact hx

/-- **C41** In every reachable state (also in the middle of a call, and for targets returning infinities or NaN) there
are exactly `N` proposals and all are centred inside the search space. -/
theorem C41_lais_in_space {N k L : ℕ} {lo hi : Fin d → K} (hbox : ∀ i, lo i ≤ hi i)
    {q : (Fin d → K) → (Fin d → K) → XF K} {S : AIS K d} (hS : LAIS.Reach N k L lo hi q S) :
    S.centers.length = N ∧ ∀ c ∈ S.centers, ∀ i, lo i ≤ c i ∧ c i ≤ hi i := by
  induction hS with
  | reset u hu S h =>
    rcases Nat.eq_zero_or_pos N with h0 | hN
    · subst h0
      simp [AIS.reset] at h
    · rw [AIS.reset_ok N hN] at h
      cases h
      refine ⟨by simp, ?_⟩
      intro c hc i
      obtain ⟨j, -, rfl⟩ := List.mem_map.1 hc
      have := hu j i
      have := hbox i
      constructor <;> nlinarith
  | call S hS target n expired script ih =>
    apply whileScript_inv (fun S => S.centers.length = N ∧ ∀ c ∈ S.centers, ∀ i, lo i ≤ c i ∧ c i ≤ hi i) _ script expired S ih
    rintro it s ⟨hl, hs⟩ -
    unfold LAIS.body
    simp only
    split
    · exact ⟨hl, hs⟩
    · refine ⟨by simp [LAIS.resample, hl], ?_⟩
      intro c hc
      simp only [LAIS.resample] at hc
      obtain ⟨j, hj, rfl⟩ := List.mem_mapIdx.1 hc
      exact LAIS.mcmcMh_mem hbox target L _ _ _ (hs _ (List.getElem_mem _))

/-- What holds of every reachable layered AIS state with positive proposal densities and nonnegative targets. -/
structure LAIS.Good (N : ℕ) (S : AIS K d) : Prop where
  centers : S.centers.length = N
  model : S.modelWeights = List.replicate N (XF.fin (1 / (N : K)))
  weights : S.weights.length = S.samples.length

theorem LAIS.body_good {N k L : ℕ} {lo hi : Fin d → K} {q : (Fin d → K) → (Fin d → K) → XF K}
    {target : (Fin d → K) → XF K} (it : LAIS.Iter K d) (S : AIS K d) (hS : LAIS.Good N S) :
    let r := LAIS.body N k L lo hi q target it S
    LAIS.Good N r.1 ∧
    ((N * k = 1 ∧ r.2 = some .value ∧ r.1 = { S with numQ := S.numQ + 1 }) ∨
     (N * k ≠ 1 ∧ r.2 = none ∧ r.1.samples = S.samples ++ AIS.batch N k it.pts ∧
      r.1.weights = S.weights ++ (AIS.batch N k it.pts).map (S.weigh q target) ∧
      r.1.numQ = S.numQ + N * (L + k) ∧ r.1.numPi = S.numPi + N * (2 * L + k) ∧ r.1.numQEval = S.numQEval)) := by
  intro r
  obtain ⟨hc, hm, hw⟩ := hS
  have hr : r = LAIS.body N k L lo hi q target it S := rfl
  unfold LAIS.body at hr
  simp only [AIS.batch_length] at hr
  by_cases h1 : N * k = 1
  · rw [if_pos h1] at hr
    rw [hr]
    exact ⟨⟨hc, hm, hw⟩, Or.inl ⟨h1, rfl, by rw [h1]⟩⟩
  · rw [if_neg h1] at hr
    rw [hr]
    refine ⟨⟨by simp [LAIS.resample, hc], hm, by simp [LAIS.resample, hw]⟩, Or.inr ⟨h1, rfl, rfl, ?_, ?_, ?_, rfl⟩⟩
    · simp only [LAIS.resample]
      rfl
    · simp only [LAIS.resample, hc]; ring
    · simp only [LAIS.resample, hc]; ring

theorem LAIS.reach_good {N k L : ℕ} {lo hi : Fin d → K} {q : (Fin d → K) → (Fin d → K) → XF K}
    {S : AIS K d} (h : LAIS.Reach N k L lo hi q S) : LAIS.Good N S := by
  induction h with
  | reset u hu S h =>
    rcases Nat.eq_zero_or_pos N with h0 | hN
    · subst h0
      simp [AIS.reset] at h
    · rw [AIS.reset_ok N hN] at h
      cases h
      exact ⟨by simp, rfl, rfl⟩
  | call S hS target n expired script ih =>
    exact whileScript_inv (LAIS.Good N) (fun it s hs _ => (LAIS.body_good it s hs).1) script expired S ih

/-- **C42** Same contract as C38 for layered AIS with `N*K ≥ 2`: earlier samples and weights stay as prefixes, `m` whole
batches are added with one weight per sample, the evaluation counters grow by exactly `m*N*(2L+K)` target evaluations and
`m*N*(L+K)` proposal samples, it never raises, and a call that returns without late clock has the samples asked for and
less than a batch more than needed. -/
theorem C42_lais {N k L : ℕ} (hNk : 2 ≤ N * k) {lo hi : Fin d → K} {q : (Fin d → K) → (Fin d → K) → XF K}
    {S : AIS K d} (hS : LAIS.Reach N k L lo hi q S) (target : (Fin d → K) → XF K)
    (n : ℕ) (expired : Bool) (script : List (LAIS.Iter K d)) :
    let out := LAIS.importanceSample N k L lo hi q target n expired script S
    (∃ new ws m, out.state.samples = S.samples ++ new ∧ out.state.weights = S.weights ++ ws ∧ new.length = ws.length ∧
      new.length = m * (N * k) ∧ (new ≠ [] → (S.samples ++ new).length < n + N * k) ∧
      out.state.numPi = S.numPi + m * (N * (2 * L + k)) ∧ out.state.numQ = S.numQ + m * (N * (L + k))) ∧
    (∀ S', out = .done S' → expired = false → (∀ it ∈ script, it.late = false) → n ≤ S'.samples.length) ∧
    (∀ e S', out ≠ .raised e S') ∧
    (n - S.samples.length ≤ script.length → ∃ S', out = .done S') := by
  intro out
  have hg := LAIS.reach_good hS
  refine ⟨?_, ?_, ?_, ?_⟩
  · have := whileScript_inv (cond := fun S : AIS K d => decide (S.samples.length < n)) (late := LAIS.Iter.late)
      (body := LAIS.body N k L lo hi q target)
      (fun S' => LAIS.Good N S' ∧ ∃ new ws m, S'.samples = S.samples ++ new ∧ S'.weights = S.weights ++ ws ∧
        new.length = ws.length ∧ new.length = m * (N * k) ∧ (new ≠ [] → (S.samples ++ new).length < n + N * k) ∧
        S'.numPi = S.numPi + m * (N * (2 * L + k)) ∧ S'.numQ = S.numQ + m * (N * (L + k)))
      (by
        rintro it s ⟨hs, new, ws, m, e1, e2, e3, e4, e5, e6, e7⟩ hc
        simp only [decide_eq_true_eq] at hc
        obtain ⟨g, h⟩ := LAIS.body_good (k := k) (L := L) (lo := lo) (hi := hi) (q := q) (target := target) it s hs
        refine ⟨g, ?_⟩
        rcases h with ⟨h1, -⟩ | ⟨-, -, h1, h2, h3, h4, -⟩
        · omega
        · refine ⟨new ++ AIS.batch N k it.pts, _, m + 1, by rw [h1, e1, List.append_assoc],
            by rw [h2, e2, List.append_assoc], by simp [e3], ?_, ?_, ?_, ?_⟩
          · rw [List.length_append, AIS.batch_length, e4]; ring
          · intro _
            rw [← List.append_assoc, ← e1, List.length_append, AIS.batch_length]
            omega
          · rw [h4, e6]; ring
          · rw [h3, e7]; ring)
      script expired S ⟨hg, [], [], 0, by simp, by simp, rfl, by simp, by simp, by simp, by simp⟩
    exact this.2
  · intro S' hd he hl
    have := whileScript_done (late := LAIS.Iter.late) hd he hl
    simpa using this
  · have key : ∀ (script : List (LAIS.Iter K d)) (expired : Bool) (S : AIS K d), LAIS.Good N S → ∀ e S',
        LAIS.importanceSample N k L lo hi q target n expired script S ≠ .raised e S' := by
      intro script
      induction script with
      | nil =>
        intro expired S _ e S'
        unfold LAIS.importanceSample whileScript
        split <;> simp
      | cons it rest ih =>
        intro expired S hS e S'
        unfold LAIS.importanceSample whileScript
        split
        · obtain ⟨g, h⟩ := LAIS.body_good (k := k) (L := L) (lo := lo) (hi := hi) (q := q) (target := target) it S hS
          rcases h with ⟨h1, -⟩ | ⟨-, h2, -⟩
          · omega
          · cases hb : LAIS.body N k L lo hi q target it S with
            | mk s' e' =>
              rw [hb] at g h2
              simp only at g h2
              subst h2
              exact ih _ s' g e S'
        · simp
    exact key script expired S hg
  · intro hlen
    apply whileScript_terminates (LAIS.Good N) (fun S => n - S.samples.length)
    · intro it hit s hs hc
      simp only [decide_eq_true_eq] at hc
      obtain ⟨g, h⟩ := LAIS.body_good (k := k) (L := L) (lo := lo) (hi := hi) (q := q) (target := target) it s hs
      refine ⟨g, ?_⟩
      rcases h with ⟨h1, -⟩ | ⟨-, h2, h1, -⟩
      · omega
      · refine ⟨h2, ?_⟩
        rw [h1, List.length_append, AIS.batch_length]
        omega
    · exact hg
    · intro _; exact hlen
    · intro s _ hc
      simp only [decide_eq_true_eq] at hc
      omega

/-- The states of a layered AIS object used with positive proposal densities and nonnegative targets have nonnegative
finite weights. -/
inductive LAIS.ReachPos (N k L : ℕ) (lo hi : Fin d → K) (qv : (Fin d → K) → (Fin d → K) → K) : AIS K d → Prop
  | reset (u : ℕ → Fin d → K) (S : AIS K d) (h : AIS.reset N lo hi u = .ok S) : ReachPos N k L lo hi qv S
  | call (S : AIS K d) (hS : ReachPos N k L lo hi qv S) (t : (Fin d → K) → K) (ht : ∀ x, 0 ≤ t x) (n : ℕ) (expired : Bool)
      (script : List (LAIS.Iter K d)) :
      ReachPos N k L lo hi qv (LAIS.importanceSample N k L lo hi (fun c x => XF.fin (qv c x)) (fun x => XF.fin (t x))
        n expired script S).state

/-- **C42**, weights: with positive proposal densities and nonnegative targets the weights returned by layered AIS are
nonnegative and sum to 1 as soon as one stored weight is not zero. -/
theorem C42_lais_weights {N k L : ℕ} (hN : 0 < N) {lo hi : Fin d → K} {qv : (Fin d → K) → (Fin d → K) → K}
    (hq : ∀ c x, 0 < qv c x) {S : AIS K d} (hS : LAIS.ReachPos N k L lo hi qv S) :
    ∃ ws : List K, ws.length = S.samples.length ∧ (∀ w ∈ ws, 0 ≤ w) ∧
      ((∃ w ∈ S.weights, w ≠ XF.fin 0) → S.returned = (S.samples, ws.map XF.fin) ∧ ws.sum = 1) := by
  have key : LAIS.Good N S ∧ ∃ vs : List K, S.weights = vs.map XF.fin ∧ ∀ v ∈ vs, 0 ≤ v := by
    induction hS with
    | reset u S h =>
      rw [AIS.reset_ok N hN] at h
      cases h
      exact ⟨⟨by simp, rfl, rfl⟩, [], rfl, by simp⟩
    | call S hS t ht n expired script ih =>
      apply whileScript_inv (fun S => LAIS.Good N S ∧ ∃ vs : List K, S.weights = vs.map XF.fin ∧ ∀ v ∈ vs, 0 ≤ v)
        _ script expired S ih
      rintro it s ⟨hs, vs, e1, e2⟩ -
      obtain ⟨g, h⟩ := LAIS.body_good (k := k) (L := L) (lo := lo) (hi := hi) (q := fun c x => XF.fin (qv c x))
        (target := fun x => XF.fin (t x)) it s hs
      refine ⟨g, ?_⟩
      rcases h with ⟨-, -, h1⟩ | ⟨-, -, -, h2, -⟩
      · rw [h1]; exact ⟨vs, e1, e2⟩
      · refine ⟨vs ++ (AIS.batch N k it.pts).map fun x => t x / mixVal qv s.centers N x, ?_, ?_⟩
        · rw [h2, e1, List.map_append, List.map_map]
          congr 1
          apply List.map_congr_left
          intro x _
          unfold AIS.weigh
          rw [AIS.prob_fin qv _ N hs.centers hs.model]
          exact XF.fin_div_ne _ _ (mixVal_pos qv hq _ N hN hs.centers x).ne'
        · intro v hv
          rcases List.mem_append.1 hv with hv | hv
          · exact e2 v hv
          · obtain ⟨x, -, rfl⟩ := List.mem_map.1 hv
            exact div_nonneg (ht x) (mixVal_pos qv hq _ N hN hs.centers x).le
  obtain ⟨hg, vs, e1, e2⟩ := key
  refine ⟨vs.map fun v => v / vs.sum, ?_, ?_, ?_⟩
  · have := hg.weights
    rw [e1] at this
    simpa using this
  · intro w hw
    obtain ⟨v, hv, rfl⟩ := List.mem_map.1 hw
    exact div_nonneg (e2 v hv) (List.sum_nonneg e2)
  · rintro ⟨w, hw, hne⟩
    rcases sum_pos_or_zero vs e2 with hp | hz
    · have := norm_sum_one vs hp.ne'
      refine ⟨?_, this.2⟩
      unfold AIS.returned
      rw [← this.1, e1]
    · rw [e1] at hw
      obtain ⟨v, hv, rfl⟩ := List.mem_map.1 hw
      exact absurd (by rw [hz v hv]) hne

/-- A concrete layered AIS run with two proposals, one sample each and one Metropolis step per proposal; the second
proposal is moved to the border of the box. -/
def exLAIS : Except PyErr (List (List ℚ) × List (XF ℚ) × List (List ℚ) × ℕ × ℕ) := do
  let S ← AIS.reset (d := 1) 2 ![0] ![1] (fun k => ![(k : ℚ) / 2])
  match LAIS.importanceSample 2 1 1 ![0] ![1] (fun c x => XF.fin (1 / (1 + (x 0 - c 0) ^ 2))) (fun x => XF.fin (x 0 ^ 2)) 2
    false [⟨fun i _ => ![(i : ℚ)], fun i _ => ![3 * (i : ℚ)], fun _ _ => 1 / 2, false⟩] S with
  | .done S => .ok (S.returned.1.map fun x => [x 0], S.returned.2, S.centers.map fun x => [x 0], S.numPi, S.numQ)
  | _ => .error .timeout

example : exLAIS = .ok ([[0], [1]], [XF.fin 0, XF.fin 1], [[0], [1]], 6, 4) := by decide +kernel

/-- **C79** A single proposal with a single sample per round makes both samplers raise ValueError on the first request,
whatever the target, the state and the random outcomes. -/
theorem C79_refuted {q : (Fin d → K) → (Fin d → K) → XF K} (target : (Fin d → K) → XF K) (L : ℕ) (lo hi : Fin d → K)
    (S : AIS K d) (n : ℕ) (hn : S.samples.length < n) :
    (∀ it rest, ∃ S', DM.importanceSample 1 1 q target n false (it :: rest) S = .raised .value S') ∧
    (∀ it rest, ∃ S', LAIS.importanceSample 1 1 L lo hi q target n false (it :: rest) S = .raised .value S') := by
  constructor
  · intro it rest
    refine ⟨{ S with numQ := S.numQ + 1 * 1 }, ?_⟩
    unfold DM.importanceSample whileScript
    rw [if_pos (by simp [hn])]
    simp [DM.body, AIS.batch_length]
  · intro it rest
    refine ⟨{ S with numQ := S.numQ + 1 * 1 }, ?_⟩
    unfold LAIS.importanceSample whileScript
    rw [if_pos (by simp [hn])]
    simp [LAIS.body, AIS.batch_length]

end Verif
