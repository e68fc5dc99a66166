import Verif.Props.AIS
import Verif.Props.MPMCRun
import Verif.Props.MHRun
import Verif.Props.Rejection
import Verif.Props.Nested
import Verif.Props.HiDaisee

/-!
# C59: repeating a request for samples
-/

set_option linter.unusedSectionVars false
set_option autoImplicit false

namespace Verif

section population
variable {K : Type*} [Field K] [LinearOrder K] {d : ℕ}

/-- **C59**, DM-AIS: the call returns at once and the object is unchanged, whatever time and random numbers it is given. -/
theorem C59_dm (N k : ℕ) (q : (Fin d → K) → (Fin d → K) → XF K) (target : (Fin d → K) → XF K) (S : AIS K d) {n : ℕ}
    (hn : n ≤ S.samples.length) (expired : Bool) (script : List (DM.Iter K d)) :
    DM.importanceSample N k q target n expired script S = .done S :=
  whileScript_skip (by simpa using hn)

/-- **C59**, layered AIS. -/
theorem C59_lais (N k L : ℕ) (lo hi : Fin d → K) (q : (Fin d → K) → (Fin d → K) → XF K) (target : (Fin d → K) → XF K)
    (S : AIS K d) {n : ℕ} (hn : n ≤ S.samples.length) (expired : Bool) (script : List (LAIS.Iter K d)) :
    LAIS.importanceSample N k L lo hi q target n expired script S = .done S :=
  whileScript_skip (by simpa using hn)

end population

/-- **C59**, M-PMC. -/
theorem C59_mpmc {d N : ℕ} (k : ℕ) (target : (Fin d → XF ℝ) → XF ℝ) (S : PMC d N) {n : ℕ} (hn : n ≤ S.samples.length)
    (expired : Bool) (script : List (PMC.Iter d)) : PMC.importanceSample k target n expired script S = .done S :=
  whileScript_skip (by simpa using hn)

section kde
variable {d : ℕ}

theorem updateModel_ok {nKde : ℕ} {idx idx' : ℕ → ℕ} {xs m : List (Fin d → ℝ)} (h : MHast.updateModel nKde idx xs = .ok m) :
    ∃ m', MHast.updateModel nKde idx' xs = .ok m' := by
  unfold MHast.updateModel at h ⊢
  split at h
  · cases h
  · rename_i h1
    split at h
    · cases h
    · rename_i h2
      rw [if_neg h1, if_neg h2]
      exact ⟨_, rfl⟩

end kde

/-- **C59**, rejection sampling: after a call that returned, asking for no more samples than available returns the same
samples and weights, and no counter moves. (The kernel density model is drawn anew from the same samples.) -/
theorem C59_rejection {d : ℕ} (c : Rejection.Cfg d) {S0 S : Rejection.Rej d} {m : ℕ} {expired0 : Bool}
    {script0 : List (Rejection.Iter d)} {idx0 : ℕ → ℕ}
    (h0 : Rejection.importanceSample c m expired0 script0 idx0 S0 = .done S) {n : ℕ} (hn : n ≤ S.samples.length)
    (expired : Bool) (script : List (Rejection.Iter d)) (idx : ℕ → ℕ) :
    ∃ S', Rejection.importanceSample c n expired script idx S = .done S' ∧ S'.samples = S.samples ∧
      S'.weights = S.weights ∧ S'.drawn = S.drawn ∧ S'.numPi = S.numPi ∧ S'.numQ = S.numQ ∧ S'.numQEval = S.numQEval := by
  unfold Rejection.importanceSample at h0 ⊢
  split at h0
  · cases h0
  · cases h0
  · rename_i R hR
    simp only at h0
    split at h0
    · cases h0
    · rename_i km hkm
      have := Out.done.inj h0
      subst this
      rw [whileScript_skip (by simpa using hn)]
      obtain ⟨m', hm'⟩ := updateModel_ok (idx' := idx) hkm
      simp only
      rw [hm']
      exact ⟨_, rfl, rfl, by simp, rfl, rfl, rfl, rfl⟩

/-- The same for Metropolis-Hastings. -/
theorem C59_mh {d : ℕ} (c : MHast.Cfg d) {S0 S : MHast.MH d} {m : ℕ} {expired0 : Bool} {script0 : List (MHast.Iter d)}
    {idx0 : ℕ → ℕ} (h0 : MHast.importanceSample c m expired0 script0 idx0 S0 = .done S) {n : ℕ} (hn : n ≤ S.samples.length)
    (expired : Bool) (script : List (MHast.Iter d)) (idx : ℕ → ℕ) :
    ∃ S', MHast.importanceSample c n expired script idx S = .done S' ∧ S'.samples = S.samples ∧
      S'.weights = S.weights ∧ S'.cur = S.cur ∧ S'.trajS = S.trajS ∧ S'.trajT = S.trajT ∧ S'.numPi = S.numPi ∧
      S'.numQ = S.numQ ∧ S'.numQEval = S.numQEval := by
  unfold MHast.importanceSample at h0 ⊢
  split at h0
  · cases h0
  · cases h0
  · rename_i R hR
    simp only at h0
    split at h0
    · cases h0
    · rename_i km hkm
      have := Out.done.inj h0
      subst this
      rw [whileOut_skip (by simpa using hn)]
      obtain ⟨m', hm'⟩ := updateModel_ok (idx' := idx) hkm
      simp only
      rw [hm']
      exact ⟨_, rfl, rfl, by simp, rfl, rfl, rfl, rfl, rfl, rfl⟩

/-- **C59**, nested sampling, what holds: the same samples, weights and live points, and nothing is drawn. Missing:
nothing is evaluated. Every call evaluates all live points. -/
theorem C59_nested_partial {d : ℕ} (c : Nested.Cfg d) {S0 S : Nested.Nest d} {m : ℕ} {env0 : ℕ → Nested.Env d} {idx0 : ℕ → ℕ}
    (h0 : Nested.importanceSample c m env0 idx0 S0 = .done S) {n : ℕ} (hn : n ≤ S.samples.length)
    (env : ℕ → Nested.Env d) (idx : ℕ → ℕ) :
    ∃ S', Nested.importanceSample c n env idx S = .done S' ∧ S'.samples = S.samples ∧ S'.weights = S.weights ∧
      S'.live = S.live ∧ S'.numQ = S.numQ ∧ S'.numQEval = S.numQEval ∧ S'.numPi = S.numPi + S.live.length := by
  have hz : n - S.samples.length = 0 := by omega
  unfold Nested.importanceSample at h0
  split at h0
  · cases h0
  · cases h0
  · rename_i p hp
    split at h0
    · cases h0
    · rename_i hne
      simp only at h0
      split at h0
      · cases h0
      · rename_i km hkm
        have := Out.done.inj h0
        subst this
        obtain ⟨m', hm'⟩ := updateModel_ok (idx' := idx) hkm
        unfold Nested.importanceSample
        rw [hz]
        simp only [forN]
        have hs : ∀ W K a b e, Nested.Nest.samples ⟨p.1.live, p.1.own, p.1.view, p.1.L, W, K, a, b, e⟩ = p.1.samples :=
          fun _ _ _ _ _ => rfl
        simp only [hs] at hm' ⊢
        rw [if_neg hne, hm']
        exact ⟨_, rfl, rfl, rfl, rfl, rfl, rfl, rfl⟩

/-- **C59** is violated by nested sampling: asking again for the sample already returned evaluates the target. -/
theorem C59_refuted : ∃ (c : Nested.Cfg 1) (us : Fin c.N → Fin 1 → ℝ) (env : ℕ → Nested.Env 1) (S S' : Nested.Nest 1),
    (∀ k i, 0 ≤ us k i ∧ us k i < 1) ∧ Nested.importanceSample c 1 env (fun _ => 0) (Nested.reset c us) = .done S ∧
    S.samples.length = 1 ∧ Nested.importanceSample c 1 env (fun _ => 0) S = .done S' ∧ S'.numPi = S.numPi + 1 := by
  have hrun : ∃ S : Nested.Nest 1, Nested.importanceSample ⟨![0], ![1], fun x => x 0, 1, 1⟩ 1 (fun _ => ⟨0, ![1], false, []⟩)
      (fun _ => 0) (Nested.reset ⟨![0], ![1], fun x => x 0, 1, 1⟩ fun _ _ => 0) = .done S ∧ S.samples.length = 1 ∧
      S.live.length = 1 := by
    simp [Nested.importanceSample, Nested.reset, forN, Nested.step, Nested.resample, whileScript, Nested.Nest.samples,
      Nested.addSample, Nested.minOf, Nested.count, clip, MHast.updateModel, List.idxOf, List.findIdx, List.findIdx.go]
    rw [if_neg (by norm_num)]
    exact ⟨_, rfl, rfl, rfl⟩
  obtain ⟨S, h1, h2, h3⟩ := hrun
  obtain ⟨S', e1, -, -, -, -, -, e2⟩ := C59_nested_partial _ h1 h2.ge (fun _ => ⟨0, ![1], false, []⟩) (fun _ => 0)
  exact ⟨_, fun _ _ => 0, _, S, S', by simp, h1, h2, e1, by rw [e2, h3]⟩

/-- The same for HiDaisee: same samples and weights, same tree, no counter moves. -/
theorem C59_hidaisee {K : Type*} [Field K] [LinearOrder K] [IsStrictOrderedRing K] {d : ℕ} {target : Pt K d → XF K}
    {c : HiD.Cfg K} {S0 S : HiD.Sampler K d} {m : ℕ} {its0 : ℕ → HiD.Iter K d}
    (h0 : HiD.importanceSample c target m its0 S0 = .ok S) {n : ℕ} (hn : n ≤ S.samples.length) (its : ℕ → HiD.Iter K d) :
    HiD.importanceSample c target n its S = .ok S := by
  unfold HiD.importanceSample at h0
  split at h0
  · cases h0
  · rename_i R hR
    unfold HiD.importanceSample
    rw [Nat.sub_eq_zero_of_le hn]
    simp only [List.range_zero, List.map_nil, HiD.iterations]
    cases hu : HiD.updateModel R with
    | error e => rw [hu] at h0; cases h0
    | ok R' =>
      rw [hu] at h0
      have := Except.ok.inj h0
      subst this
      unfold HiD.updateModel at hu ⊢
      cases hw : setWeights R.T.leafNodes.length (R.T.leafNodes.map HiD.Node.mean) with
      | error e => rw [hw] at hu; cases hu
      | ok w =>
        rw [hw] at hu
        have := Except.ok.inj hu
        subst this
        simp only [HiD.getSamples]
        rw [hw]
        rfl

/-! ### Examples -/

/-- A DM-AIS object with two samples, asked for one. -/
example : DM.importanceSample 1 2 (fun _ _ => XF.fin 1) (fun _ => XF.fin (1 : ℚ)) 1 false []
    (⟨[![0]], [XF.fin 1], [![0], ![1]], [XF.fin 1, XF.fin 1], 2, 0, 2⟩ : AIS ℚ 1) =
    .done ⟨[![0]], [XF.fin 1], [![0], ![1]], [XF.fin 1, XF.fin 1], 2, 0, 2⟩ :=
  C59_dm _ _ _ _ _ (by decide) _ _

/-- A rejection sampler that has returned two samples, asked for one. -/
example : ∃ S S' : Rejection.Rej 1, S.samples.length = 2 ∧
    Rejection.importanceSample Rejection.exCfg 1 false [] (fun _ => 0) S = .done S' ∧ S'.samples = S.samples := by
  obtain ⟨S, h1, h2⟩ := Rejection.ex_run
  obtain ⟨S', e1, e2, -⟩ := C59_rejection _ h1 (n := 1) (by omega) false [] (fun _ => 0)
  exact ⟨S, S', by omega, e1, e2⟩

end Verif
