import Verif.Props.ScaleTP
import Verif.Props.TPCost

/-!
# C154: asking in portions, tree pyramid
-/

set_option linter.unusedSectionVars false
set_option autoImplicit false

namespace Verif

section
variable {K : Type*} [Field K] [LinearOrder K] [IsStrictOrderedRing K] {d : ℕ}

/-! ### Specification -/

/-- What a caller sees of two calls that did not raise: the same counters and the same samples (or both calls are unfinished), when
they are finished proposals over the same boxes, and if `raw` the same weights. -/
def TPSampler.LooksSame (raw : Prop) (r' r : TPSampler K d × Option (List (Pt K d) × List (XF K))) : Prop :=
  (r'.1.numQ, r'.1.numPi, r'.1.numQEvals) = (r.1.numQ, r.1.numPi, r.1.numQEvals) ∧ r'.2.map Prod.fst = r.2.map Prod.fst ∧
    (r.2.isSome = true → r'.1.model.1 = r.1.model.1) ∧ (raw → r'.2.map Prod.snd = r.2.map Prod.snd)

/-! ### Proofs -/

theorem XF.one_times (a : XF K) : XF.fin 1 * a = a := by
  have h : (0 : K) < 1 := one_pos
  cases a with
  | fin a => simp
  | nan => rfl
  | pinf => show XF.infMul (1 : K) = _; simp [XF.infMul]
  | ninf => show -(XF.infMul (1 : K)) = _; simp [XF.infMul]; rfl

namespace TPSampler
open TPTree

theorem visit_model (t : Pt K d → XF K) (draw : ℕ → Pt K d) (m : List (Pt K d × K) × List (XF K)) (S : TPSampler K d) (p : ℕ) :
    visit t draw { S with model := m } p = (visit t draw S p).map fun S => { S with model := m } := by
  unfold visit
  dsimp only
  cases S.T.nodes[p]? with
  | none => rfl
  | some n =>
    simp only [bind, pure, Except.pure]
    cases S.T.sampleNode p (n.sampler.sample1 (draw p)) with
    | error e => rfl
    | ok T1 =>
      simp only [Except.bind]
      cases T1.weighNode p t n.sampler.prob1 <;> rfl

theorem visits_model (t : Pt K d → XF K) (draw : ℕ → Pt K d) (m : List (Pt K d × K) × List (XF K)) : ∀ (l : List ℕ) (S : TPSampler K d),
    l.foldlM (visit t draw) { S with model := m } = (l.foldlM (visit t draw) S).map fun S => { S with model := m }
  | [], _ => rfl
  | p :: l, S => by
    rw [List.foldlM_cons, List.foldlM_cons, visit_model]
    simp only [bind]
    cases visit t draw S p with
    | error e => rfl
    | ok S' => exact visits_model t draw m l S'

theorem iterate_model (cfg : TPConfig K) (t : Pt K d → XF K) (it : TPIter K d) (m : List (Pt K d × K) × List (XF K)) (S : TPSampler K d) :
    iterate cfg t it { S with model := m } = (iterate cfg t it S).map fun S => { S with model := m } := by
  unfold iterate
  dsimp only
  simp only [bind, pure, Except.pure]
  cases expandNodes cfg.essTarget cfg.nMin cfg.parallel S.T (sortedLeaves S.T) [] with
  | error e => rfl
  | ok r =>
    simp only [Except.bind]
    have h := visits_model t it.draw m r.2 { S with T := r.1 }
    dsimp only at h
    rw [h]
    cases r.2.foldlM (visit t it.draw) { S with T := r.1 } with
    | error e => rfl
    | ok S2 =>
      simp only [Except.map]
      split
      · cases S2.T.resample t it.redraw <;> rfl
      · rfl

theorem loop_model (cfg : TPConfig K) (t : Pt K d → XF K) (n : ℕ) (m : List (Pt K d × K) × List (XF K)) :
    ∀ (its : List (TPIter K d)) (late : Bool) (S : TPSampler K d), loop cfg t n late its { S with model := m } =
      (loop cfg t n late its S).map fun r => ({ r.1 with model := m }, r.2)
  | [], late, S => by
    rw [loop, loop]
    simp only [bind, pure, Except.pure]
    cases S.T.getSamples cfg.essTarget <;> rfl
  | it :: its, late, S => by
    rw [loop, loop]
    simp only [bind, pure, Except.pure]
    cases S.T.getSamples cfg.essTarget with
    | error e => rfl
    | ok o =>
      simp only [Except.bind]
      split
      · rw [iterate_model]
        cases iterate cfg t it S with
        | error e => rfl
        | ok S' => exact loop_model cfg t n m its it.late S'
      · rfl

theorem loop_portions (cfg : TPConfig K) (t : Pt K d → XF K) {n₁ n₂ : ℕ} (hn : n₁ ≤ n₂) (s₂ : List (TPIter K d)) :
    ∀ (s₁ : List (TPIter K d)) {S Sm : TPSampler K d}, (∀ it ∈ s₁, it.late = false) → loop cfg t n₁ false s₁ S = .ok (Sm, true) →
      (∀ p, p <+: s₁ → p ≠ s₁ → ∃ T, loop cfg t n₁ false p S = .ok (T, false)) →
      loop cfg t n₂ false (s₁ ++ s₂) S = loop cfg t n₂ false s₂ Sm
  | [], S, Sm, _, h1, _ => by
    rw [loop] at h1
    simp only [bind, pure, Except.pure] at h1
    cases hg : S.T.getSamples cfg.essTarget with
    | error e => rw [hg] at h1; cases h1
    | ok o =>
      rw [hg] at h1
      simp only [Except.bind, Except.ok.injEq, Prod.mk.injEq] at h1
      rw [h1.1]
      rfl
  | it :: rest, S, Sm, hl, h1, hu => by
    obtain ⟨T, hT⟩ := hu [] List.nil_prefix (by simp)
    rw [loop] at hT
    simp only [bind, pure, Except.pure] at hT
    rw [List.cons_append, loop]
    rw [loop] at h1
    have hu' : ∀ S', iterate cfg t it S = .ok S' → ∀ p, p <+: rest → p ≠ rest → ∃ T, loop cfg t n₁ false p S' = .ok (T, false) := by
      intro S' hi p hp hne
      obtain ⟨T', hT'⟩ := hu (it :: p) (List.cons_prefix_cons.2 ⟨rfl, hp⟩) (by simpa using hne)
      rw [loop] at hT'
      simp only [bind, pure, Except.pure] at hT'
      cases hg : S.T.getSamples cfg.essTarget with
      | error e => rw [hg] at hT'; cases hT'
      | ok o =>
        rw [hg] at hT'
        simp only [Except.bind] at hT'
        split at hT'
        · rw [hi] at hT'
          simp only at hT'
          rw [hl it List.mem_cons_self] at hT'
          exact ⟨T', hT'⟩
        · cases hT'
    simp only [bind, pure, Except.pure] at h1 ⊢
    cases hg : S.T.getSamples cfg.essTarget with
    | error e => rw [hg] at h1; cases h1
    | ok o =>
      rw [hg] at h1 hT
      simp only [Except.bind, Except.ok.injEq, Prod.mk.injEq] at h1 hT ⊢
      have hlt : o.2.length < n₁ := by
        have := hT.2
        simp only [decide_eq_false_iff_not, not_not] at this
        exact this.1
      rw [if_pos ⟨hlt, trivial⟩] at h1
      rw [if_pos ⟨by omega, trivial⟩]
      cases hi : iterate cfg t it S with
      | error e => rw [hi] at h1; cases h1
      | ok S' =>
        rw [hi] at h1
        simp only at h1 ⊢
        rw [hl it List.mem_cons_self] at h1 ⊢
        exact loop_portions cfg t hn s₂ rest (fun i hi => hl i (List.mem_cons_of_mem _ hi)) h1 (hu' S' hi)

theorem sim_normalized {T : TPTree K d} (I : WF T) : T.selfNormalize.Sim 1 T := by
  have hm : T.leavesIdx.length = T.weights.length := by rw [I.mask, List.length_map, I.lenW]
  have e : T.selfNormalize = { T with weights := T.selfNormalize.weights } := by
    unfold selfNormalize
    dsimp only
    split <;> rfl
  have hs : (TPNode.scaled 1 : TPNode K d → TPNode K d) = id := by
    funext n
    unfold TPNode.scaled
    simp [XF.one_times]
  refine ⟨?_, ?_, ?_, ?_, ?_, selfNormalize_weights_len T hm, ?_, hm⟩
  · rw [e, hs]; simp
  all_goals rw [e]

end TPSampler

open TPSampler TPTree in
/-- **C154** (tree pyramid without leaf resampling), after any number of earlier calls on a new object. The second call of the two ends
like the single call: the same exception or the same samples and counters and a proposal over the same boxes; when the effective
sample size target is at most 1 the weights are the same as well. (`u₀'` is not used: the root has its first sample.) Missing: leaf
resampling, and the weights for a target above 1 (refuted below). -/
theorem C154_tp_partial (cfg : TPConfig K) (hr : cfg.leafResampling = false) (t : Pt K d → XF K) {dmin dmax : Pt K d}
    {S₀ S S₁ : TPSampler K d} (h0 : TPSampler.new dmin dmax = .ok S₀) {earlier : List (TPCall K d)}
    (hS : S₀.calls cfg t earlier = .ok S) {n₁ n₂ : ℕ} (hn : n₁ ≤ n₂) (u₀ u₀' : Pt K d) {s₁ : List (TPIter K d)}
    (s₂ : List (TPIter K d)) (hl : ∀ it ∈ s₁, it.late = false) {o₁ : List (Pt K d) × List (XF K)}
    (h1 : importanceSampleSimple cfg t n₁ u₀ s₁ S = .ok (S₁, some o₁))
    (hu : ∀ p, p <+: s₁ → p ≠ s₁ → ∃ T, importanceSampleSimple cfg t n₁ u₀ p S = .ok (T, none)) :
    SameOutcome (LooksSame (∀ e, cfg.essTarget = some e → e ≤ 1)) (importanceSampleSimple cfg t n₂ u₀' s₂ S₁)
      (importanceSampleSimple cfg t n₂ u₀ (s₁ ++ s₂) S) := by
  obtain ⟨I, -⟩ := calls_keeps earlier (new_intact h0) hS
  obtain ⟨-, st1⟩ := simple_keeps I h1
  rw [simple_eq, simple_eq, initRoot_settled st1]
  rw [simple_eq] at h1
  simp only [simple_eq] at hu
  cases hi : initRoot t u₀ S with
  | error e => rw [hi] at h1; cases h1
  | ok S0 =>
    rw [hi] at h1
    simp only [hi, Except.bind] at h1 hu ⊢
    obtain ⟨I0, -, -⟩ := initRoot_keeps I hi
    cases hw : loop cfg t n₁ false s₁ S0 with
    | error e => rw [hw] at h1; cases h1
    | ok r =>
      obtain ⟨Sm, b⟩ := r
      rw [hw] at h1
      obtain ⟨Im, -⟩ := loop_keeps s₁ false I0 hw
      simp only at h1 Im
      cases b with
      | false => simp [finish] at h1
      | true =>
        have hu' : ∀ p, p <+: s₁ → p ≠ s₁ → ∃ T, loop cfg t n₁ false p S0 = .ok (T, false) := by
          intro p hp hne
          obtain ⟨T, hT⟩ := hu p hp hne
          cases hq : loop cfg t n₁ false p S0 with
          | error e => rw [hq] at hT; cases hT
          | ok q =>
            obtain ⟨Sq, b⟩ := q
            rw [hq] at hT
            cases b with
            | false => exact ⟨Sq, rfl⟩
            | true =>
              simp only [finish, if_true] at hT
              cases hm : Sq.updateModel with
              | error e => rw [hm] at hT; cases hT
              | ok S2 =>
                rw [hm] at hT
                simp only [Except.bind] at hT
                cases hg : S2.T.getSamples cfg.essTarget with
                | error e => rw [hg] at hT; cases hT
                | ok o => rw [hg] at hT; cases hT
        rw [loop_portions cfg t hn s₂ s₁ hl hw hu']
        obtain ⟨m, rfl⟩ : ∃ m, S₁ = { Sm with T := Sm.T.selfNormalize, model := m } := by
          simp only [finish, if_true] at h1
          cases hm : Sm.updateModel with
          | error e => rw [hm] at h1; cases h1
          | ok S2 =>
            rw [hm] at h1
            simp only [Except.bind] at h1
            cases hg : S2.T.getSamples cfg.essTarget with
            | error e => rw [hg] at h1; cases h1
            | ok o =>
              rw [hg] at h1
              simp only [Except.map, Except.ok.injEq, Prod.mk.injEq] at h1
              rw [← h1.1]
              unfold updateModel at hm
              dsimp only at hm
              cases hs : setWeights ((maskSelect Sm.T.leavesIdx Sm.T.centers).zip (maskSelect Sm.T.leavesIdx Sm.T.radii)).length
                  (maskSelect Sm.T.leavesIdx Sm.T.weights) with
              | error e => rw [hs] at hm; cases hm
              | ok st =>
                rw [hs] at hm
                cases hm
                exact ⟨_, rfl⟩
        have hsim : Sim 1 { Sm with T := Sm.T.selfNormalize } Sm := ⟨sim_normalized Im.wf, rfl, rfl, rfl, rfl⟩
        have ht : (fun x => XF.fin 1 * t x) = t := by
          funext x
          exact XF.one_times _
        have hloop := loop_sim one_pos cfg hr t n₂ s₂ false hsim
        rw [ht] at hloop
        have hmod := loop_model cfg t n₂ m s₂ false { Sm with T := Sm.T.selfNormalize }
        dsimp only at hmod
        rw [hmod]
        generalize loop cfg t n₂ false s₂ { Sm with T := Sm.T.selfNormalize } = x at hloop ⊢
        generalize loop cfg t n₂ false s₂ Sm = y at hloop ⊢
        cases hloop with
        | raised e => exact .raised e
        | @value a b hab =>
          obtain ⟨A, f⟩ := a
          obtain ⟨B, f'⟩ := b
          obtain ⟨hAB, rfl⟩ : Sim 1 A B ∧ f = f' := hab
          simp only [Except.map, finish]
          cases f with
          | false =>
            exact .value ⟨by rw [hAB.numQ, hAB.numPi, hAB.numQEvals], rfl, fun h => by simp at h, fun _ => rfl⟩
          | true =>
            simp only [if_true]
            have hum : updateModel { A with model := m } = updateModel A := rfl
            rw [hum]
            have hup := updateModel_sim hAB
            generalize A.updateModel = x at hup ⊢
            generalize B.updateModel = y at hup ⊢
            cases hup with
            | raised e => exact .raised e
            | @value a b hab =>
              simp only [Except.bind]
              have hgs := getSamples_sim one_pos hab.tree cfg.essTarget
              generalize a.T.getSamples cfg.essTarget = x at hgs ⊢
              generalize b.T.getSamples cfg.essTarget = y at hgs ⊢
              cases hgs with
              | raised e => exact .raised e
              | @value o' o ho =>
                refine .value ⟨by rw [hab.numQ, hab.numPi, hab.numQEvals], congrArg some ho.1, fun _ => hab.boxes, fun hraw => ?_⟩
                have := ho.2.2 hraw
                simp only [XF.one_times, List.map_id'] at this
                exact congrArg some this

end

-- the hypotheses: with target 9/10 a request for two samples on a new object uses one iteration
example : ∃ (S S₁ : TPSampler ℚ 1) (o : List (Pt ℚ 1) × List (XF ℚ)), TPSampler.new (fun _ : Fin 1 => (0 : ℚ)) (fun _ => 1) = .ok S ∧
    TPSampler.importanceSampleSimple ⟨some (9 / 10), 2, 1, false⟩ (fun x => XF.fin (1 + x 0)) 2 (fun _ => 1 / 2)
      [⟨fun _ _ => 1 / 4, fun _ _ => 1 / 2, false⟩] S = .ok (S₁, some o) ∧ o.1.map (· 0) = [1 / 2, 1 / 4] ∧
    ∃ T, TPSampler.importanceSampleSimple ⟨some (9 / 10), 2, 1, false⟩ (fun x => XF.fin (1 + x 0)) 2 (fun _ => 1 / 2) [] S =
      .ok (T, none) := by
  have h : (match TPSampler.new (fun _ : Fin 1 => (0 : ℚ)) (fun _ => 1) with
    | .error _ => false
    | .ok S =>
      match TPSampler.importanceSampleSimple ⟨some (9 / 10), 2, 1, false⟩ (fun x => XF.fin (1 + x 0)) 2 (fun _ => 1 / 2)
          [⟨fun _ _ => 1 / 4, fun _ _ => 1 / 2, false⟩] S,
        TPSampler.importanceSampleSimple ⟨some (9 / 10), 2, 1, false⟩ (fun x => XF.fin (1 + x 0)) 2 (fun _ => 1 / 2) [] S with
      | .ok (_, some o), .ok (_, none) => decide (o.1.map (· 0) = [1 / 2, 1 / 4])
      | _, _ => false) = true := by decide +kernel
  split at h
  · cases h
  · rename_i S hS
    split at h
    · rename_i S₁ o T h1 h2
      exact ⟨S, S₁, o, hS, h1, of_decide_eq_true h, T, h2⟩
    · cases h

/-- **C154** (tree pyramid) fails for the weights: with an effective sample size target above 1 and the density `1 + x` on `[0, 1]`, a
request for three and then for five samples returns other weights than a request for five samples with the same draws, although
the samples are the same and both lists of weights sum to 1. -/
theorem C154_tp_refuted : ∃ (o : Option (List ℚ × List (XF ℚ))) (x : List ℚ) (v v' : List (XF ℚ)),
    tpOuts ⟨some 2, 1, 1, false⟩ (fun x => XF.fin (1 + x 0)) [tpMiddle 3 9, tpMiddle 5 9] = [o, some (x, v)] ∧
    tpOuts ⟨some 2, 1, 1, false⟩ (fun x => XF.fin (1 + x 0)) [tpMiddle 5 9] = [some (x, v')] ∧
    v.sum = XF.fin 1 ∧ v'.sum = XF.fin 1 ∧ v ≠ v' :=
  ⟨some ([1 / 4, 5 / 8, 7 / 8], [XF.fin (5 / 12), XF.fin (13 / 48), XF.fin (5 / 16)]), [5 / 8, 1 / 8, 3 / 8, 13 / 16, 15 / 16],
    [XF.fin (26 / 131), XF.fin (27 / 131), XF.fin (33 / 131), XF.fin (87 / 524), XF.fin (93 / 524)],
    [XF.fin (13 / 48), XF.fin (9 / 48), XF.fin (11 / 48), XF.fin (29 / 192), XF.fin (31 / 192)], by decide +kernel⟩

end Verif
