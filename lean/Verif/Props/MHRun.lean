import Verif.Props.MH

/-!
# Metropolis-Hastings: C49, C83, termination
-/

set_option linter.unusedSectionVars false
set_option autoImplicit false

namespace Verif
namespace MHast

variable {d : ℕ} {c : Cfg d}

/-! ### C49 -/

/-- **C49** for one call of `mcmc_step`, as long as the clock does not interrupt it: the tries before the last one
failed the acceptance test and are logged as rejected, the last one passed it, is logged as accepted and returned. -/
theorem C49_step {x y : Fin d → ℝ} {env : StepEnv d} {S S' : MH d} (ho : env.closed = false)
    (hl : ∀ t ∈ env.tries, t.late = false) (h : mcmcStep c x env S = .done (S', y)) :
    ∃ (rej : List (Try d)) (t : Try d) (rest : List (Try d)), env.tries = rej ++ t :: rest ∧
      (∀ r ∈ rej, accepts c x (propose c x r.z) r.u = false) ∧ accepts c x (propose c x t.z) t.u = true ∧
      y = propose c x t.z ∧
      S'.trajS = S.trajS ++ (rej.map fun r => propose c x r.z) ++ [y] ∧
      S'.trajT = S.trajT ++ List.replicate rej.length .reject ++ [.accept] := by
  rcases mcmcStep_cases c x env S with ⟨_, -, e, -⟩ | ⟨h1, -, e⟩ | ⟨h1, -, e⟩ | ⟨-, rej, t, rest, h2, h3, h4, e⟩
  · rw [e] at h; cases h
  · rw [h1] at ho; cases ho
  · rw [h1] at ho; cases ho
  · rw [e] at h
    cases h
    refine ⟨rej, t, rest, h2, fun r hr => (h3 r hr).1, ?_, rfl, rfl, rfl⟩
    rcases h4 with h4 | h4
    · exact h4
    · rw [hl t (by simp [h2])] at h4; cases h4

/-- The tries of one iteration of `importance_sample` after the burn in. -/
def Iter.Tried (it : Iter d) (t : Try d) : Prop := ∃ i j k, t ∈ (it.env i j k).tries

/-- The clock never interrupts a step after the burn in. -/
def Iter.Timely (it : Iter d) : Prop :=
  ∀ i j k, (it.env i j k).closed = false ∧ ∀ t ∈ (it.env i j k).tries, t.late = false

theorem sample_passed {n : ℕ} {it : Iter d} (hn : 0 < c.nSteps) (ht : it.Timely) {S S' : MH d} {res : List (Fin d → ℝ)}
    (h : sample c n it.burn it.env S = .done (S', res)) :
    ∀ y ∈ res, ∃ t, it.Tried t ∧ ∃ x, y = propose c x t.z ∧ accepts c x y t.u = true := by
  have hT : ∀ l (env : StepEnv d) (S1 : MH d), (advance c l env S1).Sat (fun _ => True) (fun _ => True) (fun _ => True) := by
    intro l env S1
    cases advance c l env S1 <;> trivial
  have := sample_inv (c := c)
    (I := fun _ l => ∀ y ∈ l, ∃ t, it.Tried t ∧ ∃ x, y = propose c x t.z ∧ accepts c x y t.u = true)
    (R := fun _ => True) (J := fun _ => True) n it.burn it.env
    (fun j _ S _ => (hT _ _ _).mono (fun _ _ => by simp) (fun _ h => h) (fun _ h => h)) (fun _ h => h) ?_ S (by simp)
  · rw [h] at this
    exact this
  intro k _ i _ S1 pre acc hacc
  refine mcmcIter_inv (R := fun _ => True) (J := fun _ => True)
    (fun j S2 => 0 < j → ∃ t, it.Tried t ∧ ∃ x, S2.cur = propose c x t.z ∧ accepts c x S2.cur t.u = true) _ acc
    (fun _ l => ∀ y ∈ pre ++ l, ∃ t, it.Tried t ∧ ∃ x, y = propose c x t.z ∧ accepts c x y t.u = true) ?_ ?_
    (fun _ _ _ => trivial) S1 (by simp)
  · intro j _ S2 _
    rcases advance_cases c .decorrelation (it.env k i j) S2 with
      ⟨-, e, -⟩ | ⟨-, -, e⟩ | ⟨h1, -, e⟩ | ⟨-, rej, t, rest, h2, -, h4, e⟩
    · rw [e]; trivial
    · rw [e]; trivial
    · rw [(ht k i j).1] at h1; cases h1
    · rw [e]
      intro _
      have hm : t ∈ (it.env k i j).tries := by simp [h2]
      refine ⟨t, ⟨k, i, j, hm⟩, S2.cur, rfl, ?_⟩
      rcases h4 with h4 | h4
      · exact h4
      · rw [(ht k i j).2 t hm] at h4; cases h4
  · intro S2 h2 _ y hy
    rw [← List.append_assoc, List.mem_append, List.mem_singleton] at hy
    rcases hy with hy | rfl
    · exact hacc y hy
    · exact h2 hn

/-- **C49**, what holds: if the clock never interrupts a step, every sample added by `importance_sample` passed the
acceptance test. -/
theorem C49_partial {n : ℕ} {expired : Bool} {script : List (Iter d)} {idx : ℕ → ℕ} {S S' : MH d} (hn : 0 < c.nSteps)
    (ht : ∀ it ∈ script, it.Timely) (h : importanceSample c n expired script idx S = .done S') :
    ∃ new, S'.samples = S.samples ++ new ∧
      ∀ y ∈ new, ∃ it ∈ script, ∃ t, it.Tried t ∧ ∃ x, y = propose c x t.z ∧ accepts c x y t.u = true := by
  have key := whileOut_inv (fun S1 => ∃ new, S1.samples = S.samples ++ new ∧
      ∀ y ∈ new, ∃ it ∈ script, ∃ t, it.Tried t ∧ ∃ x, y = propose c x t.z ∧ accepts c x y t.u = true)
    (fun _ => True) (fun _ => True)
    (cond := fun S => decide (S.samples.length < n)) (late := Iter.late) (body := body c) (fun _ _ => trivial) script
    (fun it hit S1 hS hc => ?_) expired S ⟨[], by simp, by simp⟩
  · unfold importanceSample at h
    cases hw : whileOut (fun S => decide (S.samples.length < n)) Iter.late (body c) expired script S with
    | running S1 => rw [hw] at h; cases h
    | raised e S1 => rw [hw] at h; cases h
    | done S1 =>
      rw [hw] at h key
      simp only at h
      cases hu : updateModel c.nKde idx S1.samples with
      | error e => rw [hu] at h; cases h
      | ok m =>
        rw [hu] at h
        cases h
        exact key
  · obtain ⟨new, h1, h2⟩ := hS
    have hk := sample_keeps (c := c) (n := 1) (burn := it.burn) (env := it.env) S1
    unfold body
    cases hs : sample c 1 it.burn it.env S1 with
    | running p => trivial
    | raised e p => trivial
    | done p =>
      rw [hs] at hk
      refine ⟨new ++ p.2, ?_, ?_⟩
      · show p.1.samples ++ p.2 = _
        rw [show p.1.samples = S1.samples from hk, h1, List.append_assoc]
      · intro y hy
        rcases List.mem_append.1 hy with hy | hy
        · exact h2 y hy
        · obtain ⟨t, h3⟩ := sample_passed hn (ht it hit) (show _ = Out.done (p.1, p.2) from hs) y hy
          exact ⟨it, hit, t, h3⟩

/-- A target that is zero above one half. -/
noncomputable def halfCfg : Cfg 1 := ⟨![0], ![1], fun x => if x 0 < 1/2 then .fin 0 else .ninf, fun _ => .fin 0, 1, 0, 1⟩

/-- **C49** is violated: if the clock runs out during a step, the last rejected point is returned. Here it is a point at
which the target is zero, that no draw could have accepted from any point. -/
theorem C49_refuted : ∃ (c : Cfg 1) (script : List (Iter 1)) (S S' : MH 1) (y : Fin 1 → ℝ), Reach c S ∧
    importanceSample c 1 false script (fun _ => 0) S = .done S' ∧ y ∈ S'.samples ∧ c.target y = .ninf ∧
    ∀ x u, accepts c x y u = false := by
  have hrun : ∃ S', importanceSample halfCfg 1 false
      [⟨fun _ => [], fun _ _ _ => ⟨false, [⟨![1], 1/2, true⟩]⟩, false⟩] (fun _ => 0) (init ![0]) = .done S' ∧
      propose halfCfg ![0] ![1] ∈ S'.samples := by
    have h1 : halfCfg.nSteps = 1 := rfl
    have h2 : halfCfg.nBurnin = 0 := rfl
    have h3 : halfCfg.nKde = 1 := rfl
    simp [importanceSample, whileOut, body, sample, burnIn, forN, sampleIter, mcmc, mcmcIter, advance, mcmcStep, whileScript,
      tryBody, relabel, updateModel, init, h1, h2, h3]
  have hy : propose halfCfg ![0] ![1] 0 = 1 := by
    simp [propose, clip, halfCfg]
  have ht : halfCfg.target (propose halfCfg ![0] ![1]) = .ninf := by
    show (if propose halfCfg ![0] ![1] 0 < 1/2 then XF.fin 0 else XF.ninf) = _
    rw [hy, if_neg (by norm_num)]
  obtain ⟨S', hr, hm⟩ := hrun
  refine ⟨halfCfg, _, init ![0], S', _, .new _, hr, hm, ht, ?_⟩
  intro x u
  have hx : halfCfg.target x = .fin 0 ∨ halfCfg.target x = .ninf := by
    by_cases h : x 0 < 1/2
    · left; exact if_pos h
    · right; exact if_neg h
  have ha : alpha halfCfg x (propose halfCfg ![0] ![1]) = .ninf ∨ alpha halfCfg x (propose halfCfg ![0] ![1]) = .nan := by
    rw [alpha, ht]
    rcases hx with hx | hx <;> rw [hx]
    · left; rfl
    · right; rfl
  unfold accepts
  rcases ha with ha | ha <;> rw [ha] <;> cases XF.log (XF.fin u) <;> rfl

/-! ### C83 -/

theorem marked_append {S : MH d} {xs : List (Fin d → ℝ)} {ls : List Label} (h : S.trajT.length = S.trajS.length)
    {S' : MH d} (hs : S'.trajS = S.trajS ++ xs) (ht : S'.trajT = S.trajT ++ ls) :
    markedAsSample S' = markedAsSample S ++ ((xs.zip ls).filter fun p => p.2 = .sample).map Prod.fst := by
  unfold markedAsSample
  rw [hs, ht, List.zip_append h.symm]
  simp

theorem zip_unmarked : ∀ (xs : List (Fin d → ℝ)) (ls : List Label), (∀ l ∈ ls, l ≠ .sample) →
    ((xs.zip ls).filter fun p => p.2 = .sample) = [] := by
  intro xs ls h
  rw [List.filter_eq_nil_iff]
  rintro ⟨x, l⟩ hp
  simpa using h l (List.of_mem_zip hp).2

theorem marked_advance {l : Label} (hl : l ≠ .sample) {env : StepEnv d} (ho : env.closed = false) (S : MH d)
    (hS : S.trajT.length = S.trajS.length) :
    (advance c l env S).Sat (fun S' => S'.trajT.length = S'.trajS.length ∧ markedAsSample S' = markedAsSample S ∧
      (∃ T, S'.trajT = T ++ [l]) ∧ ∃ X, S'.trajS = X ++ [S'.cur]) (fun _ => True) (fun _ => True) := by
  rcases advance_cases c l env S with ⟨-, e, -⟩ | ⟨-, -, e⟩ | ⟨h, hne, e⟩ | ⟨-, rej, t, rest, -, -, -, e⟩ <;> rw [e]
  · trivial
  · trivial
  · rw [h] at ho; cases ho
  · refine ⟨by simp [logged, hS], ?_, ⟨_, rfl⟩, ⟨_, rfl⟩⟩
    rw [marked_append hS (S' := { logged c S.cur S rej t l with cur := propose c S.cur t.z })
      (xs := (rej.map fun t => propose c S.cur t.z) ++ [propose c S.cur t.z])
      (ls := List.replicate rej.length .reject ++ [l]) (by simp [logged]) (by simp [logged]), zip_unmarked]
    · simp
    · intro l' hl'
      simp only [List.mem_append, List.mem_replicate, List.mem_singleton] at hl'
      rcases hl' with ⟨-, rfl⟩ | rfl
      · simp
      · exact hl

/-- **C83** for `sample`. -/
theorem C83_sample {n : ℕ} {burn : ℕ → List (Try d)} {env : ℕ → ℕ → ℕ → StepEnv d} (hn : 0 < c.nSteps)
    (ho : ∀ i j k, (env i j k).closed = false) {S S' : MH d} {res : List (Fin d → ℝ)}
    (hS : S.trajT.length = S.trajS.length) (h : sample c n burn env S = .done (S', res)) :
    S'.trajT.length = S'.trajS.length ∧ markedAsSample S' = markedAsSample S ++ res := by
  have := sample_inv (c := c)
    (I := fun S1 l => S1.trajT.length = S1.trajS.length ∧ markedAsSample S1 = markedAsSample S ++ l)
    (R := fun _ => True) (J := fun _ => True) n burn env ?_ (fun _ h => h) ?_ S ⟨hS, by simp⟩
  · rw [h] at this
    exact this
  · intro j _ S1 h1
    exact (marked_advance (by simp) rfl S1 h1.1).mono (fun _ h => ⟨h.1, h.2.1.trans h1.2⟩) (fun _ h => h) (fun _ h => h)
  · intro k _ i _ S1 pre acc h1
    refine mcmcIter_inv (R := fun _ => True) (J := fun _ => True)
      (fun j S2 => S2.trajT.length = S2.trajS.length ∧ markedAsSample S2 = markedAsSample S ++ (pre ++ acc) ∧
        (0 < j → (∃ T, S2.trajT = T ++ [.decorrelation]) ∧ ∃ X, S2.trajS = X ++ [S2.cur])) _ acc
      (fun S2 l => S2.trajT.length = S2.trajS.length ∧ markedAsSample S2 = markedAsSample S ++ (pre ++ l)) ?_ ?_
      (fun _ _ _ => trivial) S1 ⟨h1.1, h1.2, by simp⟩
    · intro j _ S2 h2
      exact (marked_advance (by simp) (ho k i j) S2 h2.1).mono (fun _ h => ⟨h.1, h.2.1.trans h2.2.1, fun _ => h.2.2⟩)
        (fun _ h => h) (fun _ h => h)
    · intro S2 h2 _
      obtain ⟨hl, hm, h3⟩ := h2
      obtain ⟨⟨T, hT⟩, ⟨X, hX⟩⟩ := h3 hn
      have hTX : T.length = X.length := by
        have := hl
        rw [hT, hX] at this
        simpa using this
      refine ⟨?_, ?_⟩
      · show (S2.trajT.dropLast ++ [Label.sample]).length = S2.trajS.length
        rw [hT, hX]
        simp [hTX]
      · have e1 : markedAsSample S2 = ((X.zip T).filter fun p => p.2 = .sample).map Prod.fst := by
          unfold markedAsSample
          rw [hT, hX, List.zip_append hTX.symm]
          simp
        rw [← List.append_assoc, ← List.append_assoc, List.append_assoc _ pre acc, ← hm, e1]
        unfold markedAsSample
        show List.map Prod.fst (List.filter _ (S2.trajS.zip (S2.trajT.dropLast ++ [Label.sample]))) = _
        rw [hT, hX, List.dropLast_concat, List.zip_append hTX.symm]
        simp

/-- **C83**. If no step of a call of `importance_sample` starts after the timeout, the points it labels SAMPLE in the
trajectory log are, in order, exactly the samples it adds. -/
theorem C83_mh {n : ℕ} {expired : Bool} {script : List (Iter d)} {idx : ℕ → ℕ} {S S' : MH d} (hn : 0 < c.nSteps)
    (ho : ∀ it ∈ script, ∀ i j k, (it.env i j k).closed = false) (hS : S.trajT.length = S.trajS.length)
    (h : importanceSample c n expired script idx S = .done S') :
    ∃ new, S'.samples = S.samples ++ new ∧ markedAsSample S' = markedAsSample S ++ new := by
  have key := whileOut_inv (fun S1 => S1.trajT.length = S1.trajS.length ∧ ∃ new, S1.samples = S.samples ++ new ∧
      markedAsSample S1 = markedAsSample S ++ new)
    (fun _ => True) (fun _ => True)
    (cond := fun S => decide (S.samples.length < n)) (late := Iter.late) (body := body c) (fun _ _ => trivial) script
    (fun it hit S1 hS hc => ?_) expired S ⟨hS, [], by simp, by simp⟩
  · unfold importanceSample at h
    cases hw : whileOut (fun S => decide (S.samples.length < n)) Iter.late (body c) expired script S with
    | running S1 => rw [hw] at h; cases h
    | raised e S1 => rw [hw] at h; cases h
    | done S1 =>
      rw [hw] at h key
      simp only at h
      cases hu : updateModel c.nKde idx S1.samples with
      | error e => rw [hu] at h; cases h
      | ok m =>
        rw [hu] at h
        cases h
        exact key.2
  · obtain ⟨hl, new, h1, h2⟩ := hS
    have hk := sample_keeps (c := c) (n := 1) (burn := it.burn) (env := it.env) S1
    unfold body
    cases hs : sample c 1 it.burn it.env S1 with
    | running p => trivial
    | raised e p => trivial
    | done p =>
      rw [hs] at hk
      obtain ⟨a, b⟩ := C83_sample hn (ho it hit) hl (show _ = Out.done (p.1, p.2) from hs)
      refine ⟨a, new ++ p.2, ?_, ?_⟩
      · show p.1.samples ++ p.2 = _
        rw [show p.1.samples = S1.samples from hk, h1, List.append_assoc]
      · show markedAsSample p.1 = _
        rw [b, h2, List.append_assoc]

/-! ### Termination, and runs that meet the hypotheses above -/

/-- If in every step some try is accepted whatever the current point, `importance_sample` returns. -/
theorem C84_terminates {n : ℕ} {script : List (Iter d)} {idx : ℕ → ℕ} (S : MH d) (hn : 0 < c.nSteps) (hk : 0 < c.nKde)
    (h0 : 0 < n) (hlen : n ≤ S.samples.length + script.length)
    (hb : ∀ it ∈ script, ∀ j, Accepting c (it.burn j))
    (he : ∀ it ∈ script, ∀ i j k, (it.env i j k).closed = false ∧ Accepting c (it.env i j k).tries) :
    ∃ S', importanceSample c n false script idx S = .done S' := by
  have key : ∀ (script : List (Iter d)) (expired : Bool) (S : MH d), n ≤ S.samples.length + script.length →
      (expired = true → S.samples ≠ []) →
      (∀ it ∈ script, ∀ j, Accepting c (it.burn j)) →
      (∀ it ∈ script, ∀ i j k, (it.env i j k).closed = false ∧ Accepting c (it.env i j k).tries) →
      ∃ S', whileOut (fun S => decide (S.samples.length < n)) Iter.late (body c) expired script S = .done S' ∧ S'.samples ≠ [] := by
    intro script
    induction script with
    | nil =>
      intro expired S hl _ _ _
      have hl' : n ≤ S.samples.length := by simpa using hl
      refine ⟨S, whileOut_skip (by simpa using hl'), ?_⟩
      intro h
      rw [h] at hl'
      simp at hl'; omega
    | cons it rest ih =>
      intro expired S hl hne hb he
      by_cases hc : S.samples.length < n
      · cases expired with
        | true => exact ⟨S, by simp [whileOut], hne rfl⟩
        | false =>
          obtain ⟨S1, res, h1, h2, h3⟩ := sample_accepting_done (c := c) 1 hn (hb it List.mem_cons_self)
            (he it List.mem_cons_self) S
          have hbody : body c it S = .done { S1 with samples := S1.samples ++ res } := by
            unfold body
            rw [h1]
          obtain ⟨S2, h4, h5⟩ := ih it.late { S1 with samples := S1.samples ++ res }
            (by
              show n ≤ (S1.samples ++ res).length + rest.length
              rw [List.length_append, h2, h3]
              rw [List.length_cons] at hl
              omega)
            (by
              intro _ h
              have h : S1.samples ++ res = [] := h
              rw [List.append_eq_nil_iff] at h
              rw [h.2] at h3
              simp at h3)
            (fun it hit => hb it (List.mem_cons_of_mem _ hit)) (fun it hit => he it (List.mem_cons_of_mem _ hit))
          refine ⟨S2, ?_, h5⟩
          rw [whileOut]
          simp only [hc, decide_true, Bool.not_false, Bool.and_self, if_true, hbody]
          exact h4
      · refine ⟨S, whileOut_skip (by simpa using hc), ?_⟩
        intro h
        rw [h] at hc
        simp at hc; omega
  obtain ⟨S1, h1, h2⟩ := key script false S hlen (by simp) hb he
  unfold importanceSample
  rw [h1]
  simp only [updateModel, h2, hk.ne', if_false]
  exact ⟨_, rfl⟩

/-- A run that meets the hypotheses of C46, C49_partial, C83 and C84: 5 samples from a flat target. -/
example : ∃ S', importanceSample flat 5 false
    (List.replicate 5 ⟨fun _ => [⟨![1/3], 1/2, false⟩], fun _ _ _ => ⟨false, [⟨![1/3], 1/2, false⟩]⟩, false⟩) id (init ![0])
      = .done S' ∧ S'.samples.length = 5 ∧ (markedAsSample S').length = 5 := by
  have hit : ∀ it ∈ List.replicate 5 (⟨fun _ => [⟨![1/3], 1/2, false⟩], fun _ _ _ => ⟨false, [⟨![1/3], 1/2, false⟩]⟩, false⟩ : Iter 1),
      it = ⟨fun _ => [⟨![1/3], 1/2, false⟩], fun _ _ _ => ⟨false, [⟨![1/3], 1/2, false⟩]⟩, false⟩ :=
    fun it h => (List.mem_replicate.1 h).2
  obtain ⟨S', h⟩ := C84_terminates (c := flat) (n := 5) (idx := id) (script := List.replicate 5 ⟨fun _ => [⟨![1/3], 1/2, false⟩], fun _ _ _ => ⟨false, [⟨![1/3], 1/2, false⟩]⟩, false⟩) (init ![0]) (by simp [flat]) (by simp [flat]) (by norm_num)
    (by simp [init]) (fun it h => by rw [hit it h]; exact fun _ => flat_accepting)
    (fun it h => by rw [hit it h]; exact fun _ _ _ => ⟨rfl, flat_accepting⟩)
  refine ⟨S', h, ?_⟩
  have hl := ((C84_mh _ _ _ _ _).2 S' h).2.2 rfl (fun it h => by rw [hit it h])
  have hl' : S'.samples.length = 5 := by rw [hl]; simp [init]
  obtain ⟨new, h1, h2⟩ := C83_mh (by simp [flat]) (fun it h => by rw [hit it h]; exact fun _ _ _ => rfl) rfl h
  refine ⟨hl', ?_⟩
  rw [h2, show markedAsSample (init ![0] : MH 1) = [] from rfl, List.nil_append, ← hl', h1]
  simp [init]

end MHast
end Verif
