import Verif.Spec.AcceptRate
import Verif.Spec.AISRounds
import Verif.Props.AIS
import Verif.Props.PMCRounds
import Verif.Props.AISRounds
import Verif.Props.HiDaiseeWeights
import Verif.Props.Rejection
import Verif.Props.MHRun
import Verif.Props.Nested
import Verif.Props.MultiNestedRun

/-!
# Property C123: the acceptance rate

Every sampler reports the number of samples it holds divided by the number of points it counted as drawn. The theorems
compare the two numbers for every object a program can hold; the tree pyramid is in `Props/TPRate.lean`.
-/

set_option linter.unusedSectionVars false
set_option autoImplicit false

namespace Verif

theorem acceptRate_isRate {a b : ℕ} (h0 : 0 < a) (h : a ≤ b) : IsRate (acceptRate a b) := by
  have hb : 0 < b := by omega
  have hb' : (0 : ℚ) < b := by exact_mod_cast hb
  have ha' : (0 : ℚ) < a := by exact_mod_cast h0
  refine ⟨(a : ℚ) / b, ?_, by positivity, (div_le_one hb').2 (by exact_mod_cast h)⟩
  rw [acceptRate, if_neg (by omega), if_neg (by omega)]

/-! ### DM-AIS and layered AIS -/

section
variable {K : Type*} [Field K] [LinearOrder K] {d : ℕ}

theorem batch_len (N k : ℕ) (pts : ℕ → ℕ → Fin d → K) : (AIS.batch N k pts).length = N * k := by
  simp [AIS.batch, List.length_flatMap]

theorem dm_body_counts (N k : ℕ) (q : (Fin d → K) → (Fin d → K) → XF K) (t : (Fin d → K) → XF K) (it : DM.Iter K d) (S : AIS K d) :
    ((DM.body N k q t it S).2 = none → (DM.body N k q t it S).1.samples.length = S.samples.length + N * k) ∧
    ((DM.body N k q t it S).2 ≠ none → (DM.body N k q t it S).1.samples.length = S.samples.length) ∧
    (DM.body N k q t it S).1.numQ = S.numQ + N * k := by
  have hres : ∀ (b : ℕ → ℕ → K → Bool) (xs : List (Fin d → K)) (ws : List (XF K)) (S : AIS K d),
      (DM.resample b xs ws S).1.samples = S.samples ∧ (DM.resample b xs ws S).1.numQ = S.numQ := by
    intro b xs ws S
    unfold DM.resample
    split <;> exact ⟨rfl, rfl⟩
  unfold DM.body
  simp only
  split
  · simp
  · have := hres it.bern (AIS.batch N k it.pts) ((AIS.batch N k it.pts).map
      (AIS.weigh q t { S with numQ := S.numQ + N * k }))
      { S with numQ := S.numQ + N * k, numPi := S.numPi + (AIS.batch N k it.pts).length }
    revert this
    rcases DM.resample it.bern (AIS.batch N k it.pts) ((AIS.batch N k it.pts).map
      (AIS.weigh q t { S with numQ := S.numQ + N * k }))
      { S with numQ := S.numQ + N * k, numPi := S.numPi + (AIS.batch N k it.pts).length } with ⟨S1, _ | e⟩
    · rintro ⟨h1, h2⟩
      simp only at h1 h2
      simp [h1, h2, batch_len]
    · rintro ⟨h1, h2⟩
      simp only at h1 h2
      simp [h1, h2]

/-- **C123** (inherited `get_acceptance_rate`) A number is returned only if there are samples and it is positive, whatever
the counters are. -/
theorem C123_partial_number (n q : ℕ) (a : ℚ) (h : acceptRate n q = .ok a) : 0 < n ∧ 0 < a := by
  unfold acceptRate at h
  split_ifs at h with hn hq
  cases h
  have hn : 0 < n := Nat.pos_of_ne_zero hn
  have hq : 0 < q := Nat.pos_of_ne_zero hq
  exact ⟨hn, by positivity⟩

example : acceptRate 3 4 = .ok (3/4) := by norm_num [acceptRate]

/-- **C123** for DM-AIS, for every proposal density and target (which may return anything): whenever there are samples, the
rate is a number in (0,1]. A call leads to such an object again, however it ends. -/
theorem C123_partial_dm {N k : ℕ} {lo hi : Fin d → K} {q : (Fin d → K) → (Fin d → K) → XF K} {t : (Fin d → K) → XF K}
    {past : List (AIS K d)} {S : AIS K d} (h : AIS.Rounds N lo hi (DM.body N k q t) past S) :
    (S.samples ≠ [] → IsRate (acceptRate S.samples.length S.numQ)) ∧ S.samples.length = past.length * (N * k) := by
  have key : S.samples.length = past.length * (N * k) ∧ S.samples.length ≤ S.numQ := by
    induction h with
    | reset u S h =>
      unfold AIS.reset at h
      split at h
      · cases h
      · cases hw : setWeights N (List.replicate N (XF.fin (1 / (N : K)))) with
        | error e => rw [hw] at h; cases h
        | ok w => rw [hw] at h; cases h; simp
    | round past S S' h it hb ih =>
      obtain ⟨h1, -, h3⟩ := dm_body_counts N k q t it S
      rw [hb] at h1 h3
      have h1 := h1 rfl
      simp only at h1 h3
      refine ⟨by rw [h1, ih.1]; simp; ring, by omega⟩
    | raised past S S' h it e hb ih =>
      obtain ⟨-, h2, h3⟩ := dm_body_counts N k q t it S
      rw [hb] at h2 h3
      have h2 := h2 (by simp)
      simp only at h2 h3
      exact ⟨h2.trans ih.1, by omega⟩
  exact ⟨fun hne => acceptRate_isRate (List.length_pos_iff.2 hne) key.2, key.1⟩

/-- **C123** for layered AIS with at least two samples per iteration (a single one raises, C79): the rate is exactly
`K / (K + L)`, where `K` is the number of samples per proposal and `L` the number of Metropolis steps: the points tried by
the adaptation of the proposals count as rejected. -/
theorem C123_partial_lais {N k L : ℕ} (hN : N * k ≠ 1) {lo hi : Fin d → K} {q : (Fin d → K) → (Fin d → K) → XF K}
    {t : (Fin d → K) → XF K} {past : List (AIS K d)} {S : AIS K d}
    (h : AIS.Rounds N lo hi (LAIS.body N k L lo hi q t) past S) (hne : S.samples ≠ []) :
    acceptRate S.samples.length S.numQ = .ok ((k : ℚ) / (k + L)) ∧ IsRate (acceptRate S.samples.length S.numQ) := by
  have hbody : ∀ (it : LAIS.Iter K d) (S : AIS K d), S.centers.length = N → (LAIS.body N k L lo hi q t it S).2 = none ∧
      (LAIS.body N k L lo hi q t it S).1.samples.length = S.samples.length + N * k ∧
      (LAIS.body N k L lo hi q t it S).1.numQ = S.numQ + N * (k + L) ∧
      (LAIS.body N k L lo hi q t it S).1.centers.length = N := by
    intro it S hc
    unfold LAIS.body
    simp only
    rw [if_neg (by rw [batch_len]; exact hN)]
    refine ⟨rfl, by simp [LAIS.resample, batch_len], ?_, by simp [LAIS.resample, hc]⟩
    simp only [LAIS.resample, hc]
    ring
  have key : S.samples.length = past.length * (N * k) ∧ S.numQ = past.length * (N * (k + L)) ∧ S.centers.length = N := by
    clear hne
    induction h with
    | reset u S h =>
      unfold AIS.reset at h
      split at h
      · cases h
      · cases hw : setWeights N (List.replicate N (XF.fin (1 / (N : K)))) with
        | error e => rw [hw] at h; cases h
        | ok w => rw [hw] at h; cases h; simp
    | round past S S' h it hb ih =>
      obtain ⟨h1, h2, h3, h4⟩ := hbody it S ih.2.2
      rw [hb] at h1 h2 h3 h4
      simp only at h2 h3 h4
      refine ⟨by rw [h2, ih.1]; simp; ring, by rw [h3, ih.2.1]; simp; ring, h4⟩
    | raised past S S' h it e hb ih =>
      have := (hbody it S ih.2.2).1
      rw [hb] at this
      cases this
  obtain ⟨k1, k2, -⟩ := key
  have hpos : 0 < S.samples.length := List.length_pos_iff.2 hne
  have hp : 0 < past.length * N * k := by rw [k1] at hpos; rw [mul_assoc]; exact hpos
  have hk : 0 < k := Nat.pos_of_mul_pos_left hp
  have hpN : 0 < past.length * N := Nat.pos_of_mul_pos_right hp
  have hle : S.samples.length ≤ S.numQ := by
    rw [k1, k2]
    exact Nat.mul_le_mul_left _ (Nat.mul_le_mul_left _ (by omega))
  refine ⟨?_, acceptRate_isRate hpos hle⟩
  rw [acceptRate, if_neg hpos.ne', if_neg (by omega), k1, k2]
  congr 1
  have h1 : ((past.length * N : ℕ) : ℚ) ≠ 0 := by exact_mod_cast hpN.ne'
  have h2 : ((k : ℚ) + L) ≠ 0 := by
    have : (0 : ℚ) < k := by exact_mod_cast hk
    positivity
  rw [show past.length * (N * k) = past.length * N * k by ring, show past.length * (N * (k + L)) = past.length * N * (k + L) by ring]
  push_cast at h1 ⊢
  rw [mul_div_mul_left _ _ h1]

end

/-- A DM-AIS object with two samples. -/
example : ∃ past S, AIS.Rounds (K := ℚ) (d := 1) 2 ![0] ![1] (DM.body 2 1 (fun _ _ => XF.fin 1) fun _ => XF.fin 1) past S ∧
    S.samples = [![0], ![1]] := by
  have h := AIS.Rounds.reset (K := ℚ) (body := DM.body 2 1 (fun _ _ => XF.fin 1) fun _ => XF.fin 1) _ _
    (AIS.reset_ok (d := 1) 2 (by norm_num) ![0] ![1] fun k => ![(k : ℚ)])
  let it : DM.Iter ℚ 1 := ⟨fun i _ => ![(i : ℚ)], fun _ j p => decide (1 ≤ p) || (decide (0 < p) && j == 1), false⟩
  refine ⟨_, _, h.round _ _ _ it (Prod.ext rfl (by decide +kernel)), by decide +kernel⟩

/-- A layered AIS object with two samples and two Metropolis steps per proposal. -/
example : ∃ past S, AIS.Rounds (K := ℚ) (d := 1) 2 ![0] ![1]
    (LAIS.body 2 1 2 ![0] ![1] (fun _ _ => XF.fin 1) fun _ => XF.fin 1) past S ∧ S.samples = [![0], ![1]] ∧ S.numQ = 6 := by
  have h := AIS.Rounds.reset (K := ℚ) (body := LAIS.body 2 1 2 ![0] ![1] (fun _ _ => XF.fin 1) fun _ => XF.fin 1) _ _
    (AIS.reset_ok (d := 1) 2 (by norm_num) ![0] ![1] fun k => ![(k : ℚ)])
  let it : LAIS.Iter ℚ 1 := ⟨fun i _ => ![(i : ℚ)], fun _ _ => ![2], fun _ _ => 1 / 2, false⟩
  refine ⟨_, _, h.round _ _ _ it (Prod.ext rfl (by decide +kernel)), by decide +kernel, by decide +kernel⟩

/-! ### M-PMC, HiDaisee -/

/-- **C123** for M-PMC: the rate is 1 whenever there are samples. -/
theorem C123_partial_mpmc {d N : ℕ} {k : ℕ} {sigma : ℝ} {lo hi : Fin d → ℝ} {S : PMC d N}
    (h : PMC.Reach k sigma lo hi S) (hne : S.samples ≠ []) : acceptRate S.samples.length S.numQ = .ok 1 := by
  have key : S.samples.length = S.numQ := by
    clear hne
    induction h with
    | reset u S h =>
      unfold PMC.reset at h
      split at h
      · cases h
      · split at h
        · cases hw : setWeights N (List.replicate N (XF.fin (1 / (N : ℝ)))) with
          | error e => rw [hw] at h; cases h
          | ok w => rw [hw] at h; cases h; simp
        · cases h
    | call S hS t ht n expired script S' h ih =>
      obtain ⟨⟨new, ws, r, h1, -, h3, -, -, h6⟩, -⟩ := PMC.C82_mpmc k t n expired script S
      have hst : (PMC.importanceSample k t n expired script S).state = S' := by
        rcases h with h | h <;> rw [h] <;> rfl
      obtain ⟨-, -, h6⟩ := h6 ⟨S', h⟩
      rw [hst] at h1 h6
      rw [h1, h6, List.length_append, h3, ih]
  have hpos : 0 < S.samples.length := List.length_pos_iff.2 hne
  rw [acceptRate, if_neg hpos.ne', if_neg (by omega), ← key, div_self (by exact_mod_cast hpos.ne')]

open PMC in
/-- An M-PMC object with four samples. -/
example : ∃ S : PMC 1 1, PMC.Reach 2 1 0 1 S ∧ S.samples.length = 4 := by
  obtain ⟨S, hS⟩ := reset_ok (d := 1) (N := 1) one_pos 1 one_pos 0 1 0
  obtain ⟨hg, hs, -⟩ := reset_good one_pos 2 1 0 1 0 S hS
  have r0 : Rounds 2 1 0 1 (fun _ => XF.fin 0) [] S := .reset 0 S hS
  have hc0 : S.covs 0 = Matrix.diagonal fun _ => 1 := by
    unfold reset at hS
    rw [if_neg (by omega), if_pos (by simp), setWeights_uniform 1 one_pos] at hS
    cases hS
    rfl
  obtain ⟨S1, b1, g1, c1, x, s1, -⟩ := wide_round one_pos r0 hg 1 one_pos hc0
  have r1 : Rounds 2 1 0 1 (fun _ => XF.fin 0) [S] S1 := .round [] S S1 r0 exWide b1
  obtain ⟨S2, b2, g2, -, x', s2, -⟩ := wide_round one_pos r1 g1 10 (by norm_num) c1
  rw [hs] at s1
  rw [s1] at s2
  exact ⟨S2, .call S (.reset 0 S hS) (fun _ => XF.fin 0) (fun _ => Or.inr ⟨0, rfl⟩) 4 false [exWide, exWide] S2
    (Or.inl (run_two _ 4 exWide exWide rfl S S1 S2 b1 b2 (by rw [hs]; simp) (by rw [s1]; simp) (by rw [s2]; simp))),
    by rw [s2]; simp⟩

/-- **C123** for HiDaisee: the rate is 1 whenever there are samples. -/
theorem C123_partial_hidaisee {K : Type*} [Field K] [LinearOrder K] [IsStrictOrderedRing K] {d : ℕ} {lo hi : Pt K d}
    (hbox : ∀ i, lo i < hi i) {c : HiD.Cfg K} {target : Pt K d → XF K} {S : HiD.Sampler K d}
    (h : HiD.Reach lo hi c target S) (hne : S.samples ≠ []) : acceptRate S.samples.length S.numQ = .ok 1 := by
  have key : S.samples.length = S.numQ := by
    clear hne
    induction h with
    | new => rfl
    | @call S S' n its hr hc ih =>
      obtain ⟨a1, a2, -⟩ := HiD.reach_spec hbox hr
      obtain ⟨-, b2, -, ⟨new, b3, b4⟩, b5⟩ := HiD.importance_spec hbox a1 hc
      rw [b2, b4.length_eq, b5, List.length_append, b3, ← a2, ih]
  have hpos : 0 < S.samples.length := List.length_pos_iff.2 hne
  rw [acceptRate, if_neg hpos.ne', if_neg (by omega), ← key, div_self (by exact_mod_cast hpos.ne')]

open HiD in
/-- A HiDaisee object with a sample. -/
example : ∃ S : Sampler ℝ 1, HiD.Reach ![-1] ![1] (cfg 1) tgt S ∧ S.samples = [![-3/4]] := by
  have h1 := step1 1
  have hr : List.range 1 = [0] := rfl
  obtain ⟨S', e1, e2, e3⟩ := importance_of (c := cfg 1) (target := tgt) (n := 1)
    (its := fun _ => ⟨fun _ => 0, ![1/8], 0⟩) (S := reset ![-1] ![1]) (S1 := { reset ![-1] ![1] with
      T := T1, numQ := 1, numPi := 1, numQEval := 1 })
    (by simp [reset, hr, iterations, h1, -one_div])
  exact ⟨S', Reach.new.call e1, e3⟩

/-! ### Rejection sampling -/

theorem Rejection.samples_drawn {d : ℕ} {c : Rejection.Cfg d} {S : Rejection.Rej d} (h : Rejection.Reach c S) :
    S.samples.length ≤ S.drawn := by
  have key : ∀ n expired script idx (S : Rejection.Rej d), S.samples.length ≤ S.drawn →
      (Rejection.importanceSample c n expired script idx S).state.samples.length ≤
        (Rejection.importanceSample c n expired script idx S).state.drawn := by
    intro n expired script idx S h
    have := whileScript_inv (cond := fun S : Rejection.Rej d => decide (S.samples.length < n)) (late := Rejection.Iter.late)
      (body := Rejection.body c n) (fun S => S.samples.length ≤ S.drawn) (fun it S h _ => by
        have := List.length_filter_le (fun j => Rejection.accepts c (it.pts j) (it.u j)) (List.range (n - S.samples.length))
        simp only [Rejection.body, List.length_append, List.length_map, List.length_range] at this ⊢
        omega) script expired S h
    unfold Rejection.importanceSample
    revert this
    cases whileScript (fun S : Rejection.Rej d => decide (S.samples.length < n)) Rejection.Iter.late (Rejection.body c n)
        expired script S with
    | running S => exact fun h => h
    | raised e S => exact fun h => h
    | done S1 =>
      intro h
      simp only
      cases MHast.updateModel c.nKde idx S1.samples <;> exact h
  induction h with
  | new => simp [Rejection.init]
  | @isDone S S' n expired script idx _ he ih =>
    have := key n expired script idx S ih
    rw [he] at this
    exact this
  | @isRaised S S' n expired script idx e _ he ih =>
    have := key n expired script idx S ih
    rw [he] at this
    exact this

/-- **C123** for rejection sampling: a number in (0,1] whenever there are samples. It is at most the fraction of the points
drawn that were kept, and can be smaller (C52). -/
theorem C123_partial_rejection {d : ℕ} {c : Rejection.Cfg d} {S : Rejection.Rej d} (h : Rejection.Reach c S)
    (hne : S.samples ≠ []) :
    IsRate (acceptRate S.samples.length S.numQ) ∧
    ∀ a, acceptRate S.samples.length S.numQ = .ok a → a ≤ (S.samples.length : ℚ) / S.drawn := by
  have h1 := Rejection.samples_drawn h
  have h2 := (Rejection.C52_partial h).1
  have hpos : 0 < S.samples.length := List.length_pos_iff.2 hne
  refine ⟨acceptRate_isRate hpos (h1.trans h2), ?_⟩
  intro a ha
  rw [acceptRate, if_neg hpos.ne', if_neg (by omega)] at ha
  cases ha
  have hd : (0 : ℚ) < S.drawn := by exact_mod_cast (by omega : 0 < S.drawn)
  exact div_le_div_of_nonneg_left (by positivity) hd (by exact_mod_cast h2)

/-- A rejection sampler with two samples. -/
example : ∃ S : Rejection.Rej 1, Rejection.Reach Rejection.exCfg S ∧ S.samples.length = 2 := by
  obtain ⟨S', h, -, h2, -⟩ := Rejection.ex_run
  exact ⟨S', Rejection.Reach.new.isDone h, h2⟩

/-! ### Nested and multi-nested sampling -/

open Nested in
theorem nested_addSample {d : ℕ} (k : ℕ) (S : Nest d) : (addSample k S).samples.length = S.samples.length + 1 ∧
    (addSample k S).numQ = S.numQ := by
  unfold addSample
  split
  · rename_i h
    rw [h]
    exact ⟨rfl, rfl⟩
  · exact ⟨by simp [Nest.samples], rfl⟩

theorem Nested.samples_length_set {d : ℕ} (S : Nested.Nest d) (l : List (Fin d → ℝ)) :
    ({ S with live := l } : Nested.Nest d).samples.length = S.samples.length := by
  unfold Nested.Nest.samples
  cases S.view <;> rfl

open Nested in
theorem nested_step_count {d : ℕ} {c : Cfg d} (e : Env d) (p : Nest d × List ℝ) (h : p.1.samples.length ≤ p.1.numQ) :
    (step c e p).state.1.samples.length ≤ (step c e p).state.1.numQ := by
  obtain ⟨S, vs⟩ := p
  cases vs with
  | nil => exact h
  | cons v vs =>
    simp only at h
    unfold step
    simp only
    set k := (v :: vs).idxOf (minOf v vs)
    obtain ⟨a1, a2⟩ := nested_addSample k S
    set S1 : Nest d := { addSample k S with L := (addSample k S).L ++ [minOf v vs] } with hS1
    have b1 : S1.samples.length = S.samples.length + 1 := a1
    have b2 : S1.numQ = S.numQ := a2
    have key : (resample c (S1.live.getD (e.r % S1.live.length) 0) (minOf v vs) e S1).state.1.samples.length ≤
        (resample c (S1.live.getD (e.r % S1.live.length) 0) (minOf v vs) e S1).state.1.numQ := by
      unfold resample
      refine whileScript_inv (fun q : Nest d × (Fin d → ℝ) × ℝ => q.1.samples.length ≤ q.1.numQ) ?_ _ _ _ ?_
      · intro t q hq _
        show q.1.samples.length ≤ q.1.numQ + 1
        omega
      · show S1.samples.length ≤ S1.numQ + 1
        omega
    revert key
    cases resample c (S1.live.getD (e.r % S1.live.length) 0) (minOf v vs) e S1 with
    | running q => exact fun h => h
    | raised err q => exact fun h => h
    | done q =>
      intro h
      simp only [Out.state] at h ⊢
      rw [samples_length_set]
      exact h

open Nested in
/-- A call of nested sampling keeps `samples ≤ points drawn`, however it ends. -/
theorem nested_call_count {d : ℕ} (c : Cfg d) (n : ℕ) (env : ℕ → Env d) (idx : ℕ → ℕ) (S : Nest d)
    (h : S.samples.length ≤ S.numQ) :
    (importanceSample c n env idx S).state.samples.length ≤ (importanceSample c n env idx S).state.numQ := by
  have key := (forN_inv (fun _ (p : Nest d × List ℝ) => p.1.samples.length ≤ p.1.numQ)
    (fun p => p.1.samples.length ≤ p.1.numQ) (fun p => p.1.samples.length ≤ p.1.numQ)
    (f := fun i => step c (env i)) (n - S.samples.length) (fun i _ p hp => by
      have := nested_step_count (c := c) (env i) p hp
      revert this
      cases step c (env i) p <;> exact fun h => h) ({ S with numPi := S.numPi + S.live.length }, S.live.map c.target) h)
  unfold importanceSample
  revert key
  cases forN (fun i => step c (env i)) (n - S.samples.length)
      ({ S with numPi := S.numPi + S.live.length }, S.live.map c.target) with
  | running p => exact fun h => h
  | raised e p => exact fun h => h
  | done p =>
    intro h
    simp only
    split
    · exact h
    · cases MHast.updateModel c.nKde idx ({ p.1 with weights := finalWeights c.N p.1.L } : Nest d).samples <;> exact h

open Nested in
/-- **C123** for nested sampling, whatever the clock does. -/
theorem C123_partial_nested {d : ℕ} {c : Cfg d} {P : (ℕ → Env d) → Prop} {S : Nest d} (h : Reach c P S)
    (hne : S.samples ≠ []) : IsRate (acceptRate S.samples.length S.numQ) := by
  have key : S.samples.length ≤ S.numQ := by
    clear hne
    induction h with
    | new us _ => simp [reset, Nest.samples]
    | @isDone S S' n env idx _ _ he ih =>
      have := nested_call_count c n env idx S ih
      rw [he] at this
      exact this
    | @isRaised S S' n env idx e _ _ he ih =>
      have := nested_call_count c n env idx S ih
      rw [he] at this
      exact this
  exact acceptRate_isRate (List.length_pos_iff.2 hne) key

/-- A nested sampler with two samples. -/
example : ∃ S : Nested.Nest 1, Nested.Reach Nested.exCfg (fun _ => True) S ∧ S.samples.length = 2 := by
  obtain ⟨S', h1, h2, -⟩ := Nested.ex_run
  exact ⟨S', (Nested.Reach.new _ (by simp)).isDone trivial h1, by rw [h2]; rfl⟩

open Nested (addSample minOf Nest) in
open MultiNested in
theorem multi_step_count {d : ℕ} {c : Cfg d} (el : Ell d) (e : Env d) (p : Nest d × List ℝ) (h : p.1.samples.length ≤ p.1.numQ) :
    (step c el e p).state.1.samples.length ≤ (step c el e p).state.1.numQ := by
  unfold step
  split
  · exact h
  · rename_i v vs _
    simp only
    set k := el.idx.getD ((v :: vs).idxOf (minOf v vs)) 0
    obtain ⟨a1, a2⟩ := nested_addSample k p.1
    set S1 : Nest d := { addSample k p.1 with L := (addSample k p.1).L ++ [minOf v vs] } with hS1
    have b1 : S1.samples.length = p.1.samples.length + 1 := a1
    have b2 : S1.numQ = p.1.numQ := a2
    have key : (resample c el (minOf v vs) e S1).state.1.samples.length ≤
        (resample c el (minOf v vs) e S1).state.1.numQ := by
      unfold resample
      refine whileScript_inv (fun q : Nest d × (Fin d → ℝ) × ℝ => q.1.samples.length ≤ q.1.numQ) ?_ _ _ _ ?_
      · intro t q hq _
        show q.1.samples.length ≤ q.1.numQ + 1
        omega
      · show S1.samples.length ≤ S1.numQ + 1
        omega
    revert key
    cases resample c el (minOf v vs) e S1 with
    | running q => exact fun h => h
    | raised err q => exact fun h => h
    | done q =>
      intro h
      simp only [Out.state] at h ⊢
      rw [Nested.samples_length_set]
      exact h

open Nested (Nest finalWeights) in
open MultiNested in
/-- A call of multi-nested sampling keeps `samples ≤ points drawn`, however it ends. -/
theorem multi_call_count {d : ℕ} (c : Cfg d) (n : ℕ) (km : ℕ → ℕ → ℕ) (fuel : ℕ) (env : ℕ → Env d) (idx : ℕ → ℕ) (S : Nest d)
    (h : S.samples.length ≤ S.numQ) :
    (importanceSample c n km fuel env idx S).state.samples.length ≤ (importanceSample c n km fuel env idx S).state.numQ := by
  unfold importanceSample
  simp only
  cases hcl : recursiveClustering c km fuel S.live with
  | none => exact h
  | some r =>
    cases r with
    | error e => exact h
    | ok ells =>
      simp only
      have key := (forN_inv (fun _ (p : Nest d × List ℝ) => p.1.samples.length ≤ p.1.numQ)
        (fun p => p.1.samples.length ≤ p.1.numQ) (fun p => p.1.samples.length ≤ p.1.numQ)
        (f := fun i => step c (ells.getD (i / perEll n S.samples.length ells.length) ⟨0, 0, []⟩) (env i))
        (ells.length * perEll n S.samples.length ells.length) (fun i _ p hp => by
          have := multi_step_count (c := c) (ells.getD (i / perEll n S.samples.length ells.length) ⟨0, 0, []⟩) (env i) p hp
          revert this
          cases step c (ells.getD (i / perEll n S.samples.length ells.length) ⟨0, 0, []⟩) (env i) p <;> exact fun h => h)
        ({ S with numPi := S.numPi + S.live.length }, S.live.map c.target) h)
      revert key
      cases forN (fun i => step c (ells.getD (i / perEll n S.samples.length ells.length) ⟨0, 0, []⟩) (env i))
          (ells.length * perEll n S.samples.length ells.length)
          ({ S with numPi := S.numPi + S.live.length }, S.live.map c.target) with
      | running p => exact fun h => h
      | raised e p => exact fun h => h
      | done p =>
        intro h
        simp only
        split
        · exact h
        · cases MHast.updateModel c.nKde idx ({ p.1 with weights := finalWeights c.N p.1.L } : Nest d).samples <;> exact h

open Nested (Nest) in
open MultiNested in
/-- **C123** for multi-nested sampling. -/
theorem C123_partial_multi {d : ℕ} {c : Cfg d} {S : Nest d} (h : Reach c S) (hne : S.samples ≠ []) :
    IsRate (acceptRate S.samples.length S.numQ) := by
  have key : S.samples.length ≤ S.numQ := by
    clear hne
    induction h with
    | new us _ => simp [reset, Nest.samples]
    | @isDone S S' n fuel km env idx _ _ he ih =>
      have := multi_call_count c n km fuel env idx S ih
      rw [he] at this
      exact this
    | @isRaised S S' n fuel km env idx e _ _ he ih =>
      have := multi_call_count c n km fuel env idx S ih
      rw [he] at this
      exact this
  exact acceptRate_isRate (List.length_pos_iff.2 hne) key

open MultiNested in
/-- A multi-nested sampler with two samples. -/
example : ∃ S : Nested.Nest 1, MultiNested.Reach exCfg S ∧ S.samples.length = 2 := by
  obtain ⟨S', h1, h2, -⟩ := MultiNested.ex_run
  exact ⟨S', (Reach.new _ ex_us).isDone ex_km h1, by rw [h2]; rfl⟩

/-! ### Metropolis-Hastings -/

namespace MHast

variable {d : ℕ} {c : Cfg d}

/-- An advance draws at least one point unless it starts after the timeout. -/
theorem advance_counts (l : Label) (env : StepEnv d) (S : MH d) :
    (advance c l env S).Sat (fun S' => S.numQ ≤ S'.numQ ∧ (env.closed = false → S.numQ + 1 ≤ S'.numQ)) (fun S' => S.numQ ≤ S'.numQ)
      (fun S' => S.numQ ≤ S'.numQ) := by
  rcases advance_cases c l env S with ⟨-, e, -⟩ | ⟨-, -, e⟩ | ⟨h, -, e⟩ | ⟨-, rej, t, rest, -, -, -, e⟩ <;> rw [e]
  · exact Nat.le_add_right _ _
  · exact le_refl S.numQ
  · exact ⟨le_refl S.numQ, fun h' => by rw [h] at h'; cases h'⟩
  · exact ⟨Nat.le_add_right _ _, fun _ => Nat.add_le_add_left (by omega) _⟩

theorem sample_counts {n : ℕ} {burn : ℕ → List (Try d)} {env : ℕ → ℕ → ℕ → StepEnv d} (S : MH d) :
    (sample c n burn env S).Sat
      (fun p => S.numQ ≤ p.1.numQ ∧ (0 < c.nSteps → (∀ k < n, ∀ i < n, (env k i 0).closed = false) → S.numQ + p.2.length ≤ p.1.numQ))
      (fun p => S.numQ ≤ p.1.numQ) (fun p => S.numQ ≤ p.1.numQ) := by
  refine sample_inv (c := c) (I := fun S1 l => S.numQ ≤ S1.numQ ∧
      (0 < c.nSteps → (∀ k < n, ∀ i < n, (env k i 0).closed = false) → S.numQ + l.length ≤ S1.numQ))
    (R := fun S1 => S.numQ ≤ S1.numQ) (J := fun S1 => S.numQ ≤ S1.numQ) n burn env ?_ (fun _ h => h) ?_ S ⟨le_rfl, by simp⟩
  · intro j _ S1 h1
    refine (advance_counts _ _ S1).mono (fun _ h => ⟨h1.1.trans h.1, fun a b => ?_⟩) (fun _ h => h1.1.trans h) (fun _ h => h1.1.trans h)
    have := h1.2 a b
    have := h.1
    simp only [List.length_nil] at *
    omega
  · intro k hk i hi S1 pre acc h1
    refine mcmcIter_inv (R := fun S1 => S.numQ ≤ S1.numQ) (J := fun S1 => S.numQ ≤ S1.numQ)
      (fun j S2 => S.numQ ≤ S2.numQ ∧ (0 < c.nSteps → (∀ k < n, ∀ i < n, (env k i 0).closed = false) →
        S.numQ + (pre ++ acc).length + (if j = 0 then 0 else 1) ≤ S2.numQ)) _ acc
      (fun S2 l => S.numQ ≤ S2.numQ ∧ (0 < c.nSteps → (∀ k < n, ∀ i < n, (env k i 0).closed = false) →
        S.numQ + (pre ++ l).length ≤ S2.numQ)) ?_ ?_ (fun _ h _ => h.1) S1 ⟨h1.1, fun a b => by simpa using h1.2 a b⟩
    · intro j _ S2 h2
      refine (advance_counts _ (env k i j) S2).mono (fun S3 h => ⟨h2.1.trans h.1, fun a b => ?_⟩) (fun _ h => h2.1.trans h)
        (fun _ h => h2.1.trans h)
      have e1 := h2.2 a b
      have e3 := h.1
      rw [if_neg (by omega)]
      split_ifs at e1 with hj
      · subst hj
        have e2 := h.2 (b k hk i hi)
        omega
      · omega
    · intro S2 h2 _
      refine ⟨h2.1, fun a b => ?_⟩
      have := h2.2 a b
      rw [if_neg (by omega)] at this
      show S.numQ + (pre ++ (acc ++ [S2.cur])).length ≤ S2.numQ
      simp only [List.length_append, List.length_singleton] at this ⊢
      omega

theorem body_counts (hn : 0 < c.nSteps) {it : Iter d} (ho : (it.env 0 0 0).closed = false) (S : MH d)
    (h : S.samples.length ≤ S.numQ) : (body c it S).Sat (fun S => S.samples.length ≤ S.numQ)
      (fun S => S.samples.length ≤ S.numQ) (fun S => S.samples.length ≤ S.numQ) := by
  have h1 := sample_counts (c := c) (n := 1) (burn := it.burn) (env := it.env) S
  have h2 := sample_keeps (c := c) (n := 1) (burn := it.burn) (env := it.env) S
  unfold body
  cases hs : sample c 1 it.burn it.env S with
  | running p =>
    rw [hs] at h1 h2
    simp only [Out.Sat, Out.state] at h1 h2 ⊢
    rw [h2]; omega
  | raised e p =>
    rw [hs] at h1 h2
    simp only [Out.Sat, Out.state] at h1 h2 ⊢
    rw [h2]; omega
  | done p =>
    rw [hs] at h1 h2
    simp only [Out.Sat, Out.state] at h1 h2 ⊢
    have := h1.2 hn (fun k hk i hi => by
      obtain rfl : k = 0 := by omega
      obtain rfl : i = 0 := by omega
      exact ho)
    rw [List.length_append, h2]
    omega

/-- **C123** for Metropolis-Hastings, what holds: with at least one step per sample, the first of which starts before the
timeout, the rate is a number in (0,1] whenever there are samples. -/
theorem C123_partial_mh (hn : 0 < c.nSteps) {S : MH d} (h : OpenReach c S) (hne : S.samples ≠ []) :
    IsRate (acceptRate S.samples.length S.numQ) := by
  have key : S.samples.length ≤ S.numQ := by
    clear hne
    induction h with
    | new x0 => simp [init]
    | reset _ _ => simp [reset]
    | @sample S n burn env _ ih =>
      have h1 := sample_counts (c := c) (n := n) (burn := burn) (env := env) S
      have h2 := sample_keeps (c := c) (n := n) (burn := burn) (env := env) S
      rw [h2]
      refine ih.trans ?_
      cases hs : MHast.sample c n burn env S with
      | running p => rw [hs] at h1; exact h1
      | raised e p => rw [hs] at h1; exact h1
      | done p => rw [hs] at h1; exact h1.1
    | @importanceSample S n expired script idx ho _ ih =>
      have := whileOut_inv (fun S => S.samples.length ≤ S.numQ) (fun S => S.samples.length ≤ S.numQ)
        (fun S => S.samples.length ≤ S.numQ) (cond := fun S => decide (S.samples.length < n))
        (late := Iter.late) (body := body c) (fun S hS => hS) script
        (fun it hit S hS _ => body_counts hn (ho it hit) S hS) expired S ih
      unfold MHast.importanceSample
      revert this
      cases whileOut (fun S => decide (S.samples.length < n)) Iter.late (body c) expired script S with
      | running S => exact fun h => h
      | raised e S => exact fun h => h
      | done S =>
        intro hg
        simp only
        cases updateModel c.nKde idx S.samples <;> exact hg
  exact acceptRate_isRate (List.length_pos_iff.2 hne) key

/-- A chain with one step per sample that delivered five samples. -/
example : 0 < flat.nSteps ∧ ∃ S : MH 1, OpenReach flat S ∧ S.samples.length = 5 := by
  refine ⟨by simp [flat], ?_⟩
  have hit : ∀ it ∈ List.replicate 5 (⟨fun _ => [⟨![1/3], 1/2, false⟩], fun _ _ _ => ⟨false, [⟨![1/3], 1/2, false⟩]⟩, false⟩ : Iter 1),
      it = ⟨fun _ => [⟨![1/3], 1/2, false⟩], fun _ _ _ => ⟨false, [⟨![1/3], 1/2, false⟩]⟩, false⟩ :=
    fun it h => (List.mem_replicate.1 h).2
  obtain ⟨S', h⟩ := C84_terminates (c := flat) (n := 5) (idx := id) (script := List.replicate 5 ⟨fun _ => [⟨![1/3], 1/2, false⟩],
    fun _ _ _ => ⟨false, [⟨![1/3], 1/2, false⟩]⟩, false⟩) (init ![0]) (by simp [flat]) (by simp [flat]) (by norm_num)
    (by simp [init]) (fun it h => by rw [hit it h]; exact fun _ => flat_accepting)
    (fun it h => by rw [hit it h]; exact fun _ _ _ => ⟨rfl, flat_accepting⟩)
  have hl := ((C84_mh _ _ _ _ _).2 S' h).2.2 rfl (fun it h => by rw [hit it h])
  refine ⟨S', ?_, by rw [hl]; simp [init]⟩
  have := OpenReach.importanceSample (c := flat) 5 false (List.replicate 5 ⟨fun _ => [⟨![1/3], 1/2, false⟩],
    fun _ _ _ => ⟨false, [⟨![1/3], 1/2, false⟩]⟩, false⟩) id (fun it h => by rw [hit it h]) (.new ![0])
  rw [h] at this
  exact this

/-- A sampler that keeps every state of the chain without moving: no steps per sample. -/
noncomputable def stuckCfg : Cfg 1 := ⟨![0], ![1], fun _ => .fin 0, fun _ => .fin 0, 0, 1, 1⟩

/-- **C123** is violated: Metropolis-Hastings with `n_steps = 0` and one burn in step returns the state after the burn in again
and again; two samples from one proposed point are reported as an acceptance rate of 2. -/
theorem C123_refuted : ∃ (c : Cfg 1) (S : MH 1), OpenReach c S ∧ S.samples.length = 2 ∧
    acceptRate S.samples.length S.numQ = .ok 2 := by
  obtain ⟨u, hacc⟩ : ∃ u, ∀ x y, accepts stuckCfg x y u = true := by
    refine ⟨1/2, fun x y => ?_⟩
    have h : Real.log (1/2) < 0 := Real.log_neg (by norm_num) (by norm_num)
    simp only [accepts, alpha, stuckCfg, XF.log, XF.fin_sub, XF.fin_add]
    rw [if_neg (by norm_num), if_neg (by norm_num)]
    simpa [XF.ltb] using h
  let it : Iter 1 := ⟨fun _ => [⟨0, u, false⟩], fun _ _ _ => ⟨false, []⟩, false⟩
  have h1 : stuckCfg.nSteps = 0 := rfl
  have h2 : stuckCfg.nBurnin = 1 := rfl
  have h3 : stuckCfg.nKde = 1 := rfl
  -- the burn in draws one point
  have hb : ∃ S1 : MH 1, burnIn stuckCfg it.burn (init ![0]) = .done S1 ∧ S1.isInit = true ∧ S1.trajT ≠ [] ∧
      S1.samples = [] ∧ S1.numQ = 1 := by
    simp [burnIn, init, h2, forN, advance, mcmcStep, whileScript, tryBody, it, hacc, relabel]
  -- a sample without steps
  have hs : ∀ S1 : MH 1, S1.trajT ≠ [] → ∃ S2 : MH 1,
      forN (fun i p => sampleIter stuckCfg 1 (it.env i) p) 1 (S1, []) = .done (S2, [S1.cur]) ∧ S2.trajT ≠ [] ∧
      S2.isInit = S1.isInit ∧ S2.samples = S1.samples ∧ S2.numQ = S1.numQ := by
    intro S1 ht
    simp [forN, sampleIter, mcmc, mcmcIter, h1, relabel, ht]
  obtain ⟨S1, b1, b2, b3, b4, b5⟩ := hb
  obtain ⟨S2, c1, c2, c3, c4, c5⟩ := hs S1 b3
  let S3 : MH 1 := { S2 with samples := S2.samples ++ [S1.cur] }
  obtain ⟨S4, d1, d2, d3, d4, d5⟩ := hs S3 c2
  have e1 : body stuckCfg it (init ![0]) = .done S3 := by simp only [body, sample, b1, c1, S3]
  have e2 : burnIn stuckCfg it.burn S3 = .done S3 := by simp [burnIn, S3, c3, b2]
  have e3 : body stuckCfg it S3 = .done { S4 with samples := S4.samples ++ [S3.cur] } := by
    simp only [body, sample, e2, d1]
  have l3 : S3.samples.length = 1 := by simp [S3, c4, b4]
  have l4 : S4.samples.length = 1 := by rw [d4, l3]
  have q4 : S4.numQ = 1 := by rw [d5]; exact c5.trans b5
  have hl : it.late = false := rfl
  have hrun : whileOut (fun S : MH 1 => decide (S.samples.length < 2)) Iter.late (body stuckCfg) false [it, it] (init ![0]) =
      .done { S4 with samples := S4.samples ++ [S3.cur] } := by
    have h0 : (init (![0] : Fin 1 → ℝ)).samples.length = 0 := rfl
    simp [whileOut, e1, e3, h0, l3, l4, hl]
  have hst : ∃ S5 : MH 1, (importanceSample stuckCfg 2 false [it, it] (fun _ => 0) (init ![0])).state = S5 ∧
      S5.samples.length = 2 ∧ S5.numQ = 1 := by
    refine ⟨_, rfl, ?_⟩
    unfold importanceSample
    rw [hrun]
    simp only [h3, updateModel]
    rw [if_neg (by simp), if_neg (by norm_num)]
    exact ⟨by simp [Out.state, l4], q4⟩
  obtain ⟨S5, f1, f2, f3⟩ := hst
  refine ⟨stuckCfg, S5, f1 ▸ .importanceSample _ _ _ _ (by simp [it]) (.new _), f2, ?_⟩
  rw [f2, f3]
  norm_num [acceptRate]

end MHast
end Verif
