import Verif.Props.Nested

/-!
# Nested sampling: C87, asking in portions
-/

set_option linter.unusedSectionVars false
set_option autoImplicit false

namespace Verif
namespace Nested

variable {d : ℕ} {c : Cfg d}

/-- Objects that hold the same points and likelihoods. -/
structure Like (S T : Nest d) : Prop where
  live : S.live = T.live
  own : S.own = T.own
  view : S.view = T.view
  L : S.L = T.L

theorem Like.samples {S T : Nest d} (h : Like S T) : S.samples = T.samples := samples_congr h.live h.own h.view

/-- The same outcome up to `R`. -/
def OutRel {σ : Type} (R : σ → σ → Prop) : Out σ → Out σ → Prop
  | .done s, .done t => R s t
  | .raised e s, .raised e' t => e = e' ∧ R s t
  | .running s, .running t => R s t
  | _, _ => False

theorem whileScript_rel {σ ι : Type} {R : σ → σ → Prop} {cond : σ → Bool} {late : ι → Bool}
    {body : ι → σ → σ × Option PyErr} (hc : ∀ s t, R s t → cond s = cond t)
    (hb : ∀ it s t, R s t → R (body it s).1 (body it t).1 ∧ (body it s).2 = (body it t).2) :
    ∀ (script : List ι) (expired : Bool) (s t : σ), R s t →
      OutRel R (whileScript cond late body expired script s) (whileScript cond late body expired script t)
  | [], expired, s, t, h => by
    simp only [whileScript, hc s t h]
    split <;> exact h
  | it :: rest, expired, s, t, h => by
    simp only [whileScript, hc s t h]
    split
    · obtain ⟨h1, h2⟩ := hb it s t h
      revert h1 h2
      generalize body it s = p
      generalize body it t = q
      obtain ⟨s', e⟩ := p
      obtain ⟨t', e'⟩ := q
      intro h1 h2
      simp only at h1 h2
      subst h2
      cases e with
      | none => exact whileScript_rel hc hb rest _ s' t' h1
      | some e => exact ⟨rfl, h1⟩
    · exact h

theorem forN_rel {σ : Type} {R : σ → σ → Prop} {f : ℕ → σ → Out σ} (hf : ∀ i s t, R s t → OutRel R (f i s) (f i t)) :
    ∀ (n : ℕ) (s t : σ), R s t → OutRel R (forN f n s) (forN f n t)
  | 0, s, t, h => h
  | n + 1, s, t, h => by
    have ih := forN_rel hf n s t h
    simp only [forN]
    revert ih
    cases forN f n s <;> cases forN f n t <;> intro ih <;> first | exact ih.elim | exact hf n _ _ ih | exact ih

theorem forN_add {σ : Type} (f : ℕ → σ → Out σ) (a : ℕ) : ∀ (b : ℕ) (s : σ),
    forN f (a + b) s = (match forN f a s with
      | .done s' => forN (fun i => f (a + i)) b s'
      | .raised e s' => .raised e s'
      | .running s' => .running s')
  | 0, s => by
    simp only [forN, Nat.add_zero]
    cases forN f a s <;> rfl
  | b + 1, s => by
    rw [← Nat.add_assoc]
    simp only [forN]
    rw [forN_add f a b s]
    cases forN f a s with
    | done s' => rfl
    | raised e s' => rfl
    | running s' => rfl

theorem addSample_like {S T : Nest d} (h : Like S T) (k : ℕ) : Like (addSample k S) (addSample k T) := by
  unfold addSample
  rw [h.samples, h.live]
  split
  · exact ⟨rfl, rfl, rfl, h.L⟩
  · exact ⟨rfl, rfl, rfl, h.L⟩

theorem step_like (e : Env d) (S T : Nest d × List ℝ) (h : Like S.1 T.1 ∧ S.2 = T.2) :
    OutRel (fun p q : Nest d × List ℝ => Like p.1 q.1 ∧ p.2 = q.2) (step c e S) (step c e T) := by
  obtain ⟨S, vals⟩ := S
  obtain ⟨T, vals'⟩ := T
  obtain ⟨h, h'⟩ := h
  simp only at h h'
  subst h'
  cases vals with
  | nil => exact ⟨rfl, h, rfl⟩
  | cons v vs =>
    simp only [step]
    have ha := addSample_like h ((v :: vs).idxOf (minOf v vs))
    generalize addSample ((v :: vs).idxOf (minOf v vs)) S = S1 at ha
    generalize addSample ((v :: vs).idxOf (minOf v vs)) T = T1 at ha
    rw [ha.live, ha.L]
    have hr : OutRel (fun p q : Nest d × (Fin d → ℝ) × ℝ => Like p.1 q.1 ∧ p.2 = q.2)
        (resample c (T1.live.getD (e.r % T1.live.length) 0) (minOf v vs) e { S1 with live := T1.live, L := T1.L ++ [minOf v vs] })
        (resample c (T1.live.getD (e.r % T1.live.length) 0) (minOf v vs) e { T1 with L := T1.L ++ [minOf v vs] }) := by
      unfold resample
      refine whileScript_rel ?_ ?_ _ _ _ _ ⟨⟨rfl, ha.own, ha.view, rfl⟩, rfl⟩
      · rintro p q ⟨-, h2⟩
        rw [h2]
      · rintro t p q ⟨h1, h2⟩
        exact ⟨⟨⟨h1.live, h1.own, h1.view, h1.L⟩, rfl⟩, rfl⟩
    revert hr
    generalize resample c (T1.live.getD (e.r % T1.live.length) 0) (minOf v vs) e
      { S1 with live := T1.live, L := T1.L ++ [minOf v vs] } = o
    generalize resample c (T1.live.getD (e.r % T1.live.length) 0) (minOf v vs) e { T1 with L := T1.L ++ [minOf v vs] } = o'
    intro hr
    cases o <;> cases o' <;> first | exact hr.elim | skip
    · obtain ⟨h1, h2⟩ := hr
      refine ⟨⟨?_, h1.own, h1.view, h1.L⟩, ?_⟩
      · show List.set _ _ _ = List.set _ _ _
        rw [h1.live, h2]
      · show List.set _ _ _ = List.set _ _ _
        rw [h2]
    · exact ⟨hr.1, hr.2.1, rfl⟩
    · exact ⟨hr.1, rfl⟩

theorem importance_done {n : ℕ} {env : ℕ → Env d} {idx : ℕ → ℕ} {S S' : Nest d}
    (h : importanceSample c n env idx S = .done S') :
    ∃ p, forN (fun i => step c (env i)) (n - S.samples.length)
      ({ S with numPi := S.numPi + S.live.length }, S.live.map c.target) = .done p ∧ Like S' p.1 ∧
      S'.weights = finalWeights c.N p.1.L := by
  unfold importanceSample at h
  cases hw : forN (fun i => step c (env i)) (n - S.samples.length)
      ({ S with numPi := S.numPi + S.live.length }, S.live.map c.target) with
  | running p => rw [hw] at h; cases h
  | raised e p => rw [hw] at h; cases h
  | done p =>
    rw [hw] at h
    simp only at h
    split at h
    · cases h
    · generalize hu : MHast.updateModel c.nKde idx _ = o at h
      cases o with
      | error e => cases h
      | ok m =>
        cases h
        exact ⟨p, rfl, ⟨rfl, rfl, rfl, rfl⟩, rfl⟩

theorem loop_vals {n : ℕ} {env : ℕ → Env d} {S : Nest d} {p : Nest d × List ℝ}
    (h : forN (fun i => step c (env i)) n (S, S.live.map c.target) = .done p) : p.2 = p.1.live.map c.target := by
  have := forN_inv (f := fun i => step c (env i)) (I := fun _ (p : Nest d × List ℝ) => p.2 = p.1.live.map c.target)
    (R := fun _ => True) (J := fun _ => True) n (by
      rintro i - ⟨T, vals⟩ hp
      simp only at hp
      subst hp
      cases hs : step c (env i) (T, T.live.map c.target) with
      | running q => trivial
      | raised e q => trivial
      | done q =>
        obtain ⟨k, x, x', y, h3, -⟩ := step_done hs
        exact h3.vals) (S, S.live.map c.target) rfl
  rw [h] at this
  exact this

/-- **C87**. Asking for `n₁` and then for `n₂ ≥ n₁` samples gives the same samples, likelihoods, weights and live points
as asking for `n₂` at once, if the random outcomes of the iterations are the same. -/
theorem C87_portions {S S₁ S₂ : Nest d} {n₁ n₂ : ℕ} {env : ℕ → Env d} {idx idx' : ℕ → ℕ} (hk : 0 < c.nKde)
    (h0 : S.samples.length ≤ n₁) (h12 : n₁ ≤ n₂) (h1 : importanceSample c n₁ env idx S = .done S₁)
    (h2 : importanceSample c n₂ (fun i => env (n₁ - S.samples.length + i)) idx' S₁ = .done S₂) :
    ∃ S', importanceSample c n₂ env idx' S = .done S' ∧ S'.samples = S₂.samples ∧ S'.L = S₂.L ∧
      S'.weights = S₂.weights ∧ S'.live = S₂.live := by
  have hlen : S₁.samples.length = n₁ := by
    have := (importance_inv (c := c) (n := n₁) (env := env) (idx := idx) (S := S) (fun j T =>
      T.samples.length = S.samples.length + j) (by
        rintro j T T' hT h1 h2 h3 h4
        rw [samples_congr h1 h2 h3]
        exact hT) (by
        rintro i - T p k x x' y hT hs -
        rw [hs.samples, List.length_append, hT, List.length_singleton]
        omega) rfl).1 S₁ h1
    omega
  obtain ⟨p1, f1, l1, -⟩ := importance_done h1
  obtain ⟨p2, f2, l2, w2⟩ := importance_done h2
  have hne : S₂.samples ≠ [] := ((importance_inv (c := c) (fun _ _ => True) (fun _ _ _ _ _ _ _ _ => trivial)
    (fun _ _ _ _ _ _ _ _ _ _ _ => trivial) trivial).1 S₂ h2).2.2
  have hv1 := loop_vals (S := { S with numPi := S.numPi + S.live.length }) f1
  -- the two loops, one after the other
  have hall : OutRel (fun p q : Nest d × List ℝ => Like p.1 q.1 ∧ p.2 = q.2)
      (forN (fun i => step c (env i)) (n₂ - S.samples.length)
        ({ S with numPi := S.numPi + S.live.length }, S.live.map c.target)) (.done p2) := by
    rw [show n₂ - S.samples.length = (n₁ - S.samples.length) + (n₂ - S₁.samples.length) by omega, forN_add, f1, ← f2]
    simp only
    refine forN_rel (R := fun p q : Nest d × List ℝ => Like p.1 q.1 ∧ p.2 = q.2)
      (f := fun i => step c (env (n₁ - S.samples.length + i))) (fun i s t h => step_like _ s t h) (n₂ - S₁.samples.length)
      p1 ({ S₁ with numPi := S₁.numPi + S₁.live.length }, S₁.live.map c.target) ⟨?_, ?_⟩
    · exact ⟨l1.live.symm, l1.own.symm, l1.view.symm, l1.L.symm⟩
    · rw [hv1]
      show _ = S₁.live.map c.target
      rw [l1.live]
  revert hall
  unfold importanceSample
  cases forN (fun i => step c (env i)) (n₂ - S.samples.length)
      ({ S with numPi := S.numPi + S.live.length }, S.live.map c.target) with
  | running p => exact fun h => h.elim
  | raised e p => exact fun h => h.elim
  | done p =>
    rintro ⟨hl, -⟩
    have hs : p.1.samples = S₂.samples := hl.samples.trans l2.samples.symm
    simp only
    rw [if_neg (by rw [hs]; exact hne)]
    have hs' : ({ p.1 with weights := finalWeights c.N p.1.L } : Nest d).samples = S₂.samples := hs
    have hu : ∃ m, MHast.updateModel c.nKde idx' ({ p.1 with weights := finalWeights c.N p.1.L } : Nest d).samples = .ok m := by
      rw [hs']
      simp [MHast.updateModel, hne, hk.ne']
    obtain ⟨m, hu⟩ := hu
    rw [hu]
    refine ⟨_, rfl, hs, hl.L.trans l2.L.symm, ?_, hl.live.trans l2.live.symm⟩
    rw [w2, ← hl.L]

/-- Two calls as in `C87_portions`, for one and then for two samples. -/
example : ∃ S₁ S₂ : Nest 1,
    importanceSample exCfg 1 (fun i => if i = 0 then ⟨0, ![1], false, [⟨![4], false⟩]⟩ else ⟨0, ![0], false, [⟨![0], false⟩]⟩)
      (fun _ => 0) (reset exCfg fun _ _ => 0) = .done S₁ ∧
    importanceSample exCfg 2 (fun i => if 1 + i = 0 then ⟨0, ![1], false, [⟨![4], false⟩]⟩ else ⟨0, ![0], false, [⟨![0], false⟩]⟩)
      (fun _ => 0) S₁ = .done S₂ := by
  have h0 : (fun _ : Fin 1 => (0 : ℝ)) = ![0] := by funext i; fin_cases i; rfl
  have hr : reset exCfg (fun _ _ => 0) = ⟨[![0]], [], none, [], [], none, 0, 0, 0⟩ := by
    simp [reset, exCfg, h0]
  have c1 : clip ![(0 : ℝ)] ![2] ![1] = ![1] := by funext i; fin_cases i; simp [clip]
  have c2 : clip ![(0 : ℝ)] ![2] ![4] = ![2] := by funext i; fin_cases i; simp [clip]; norm_num
  have s0 : step exCfg ⟨0, ![1], false, [⟨![4], false⟩]⟩ (⟨[![0]], [], none, [], [], none, 1, 0, 0⟩, [1]) =
      .done (⟨[![4]], [], some 0, [1], [], none, 3, 0, 2⟩, [9]) := by
    norm_num [step, exCfg, resample, whileScript, Nest.samples, addSample, minOf, count,
      List.idxOf, List.findIdx, List.findIdx.go, c1, c2]
  have s1 : ∀ w k n, step exCfg ⟨0, ![0], false, [⟨![0], false⟩]⟩ (⟨[![4]], [], some 0, [1], w, k, n, 0, 2⟩, [9]) =
      .done (⟨[![4]], [![4], ![4]], none, [1, 9], w, k, n + 2, 0, 4⟩, [9]) := by
    intro w k n
    norm_num [step, exCfg, resample, whileScript, Nest.samples, addSample, minOf, count,
      List.idxOf, List.findIdx, List.findIdx.go, c1, c2]
  have ht : [![(0 : ℝ)]].map exCfg.target = [1] := by norm_num [exCfg]
  have ht' : [![(4 : ℝ)]].map exCfg.target = [9] := by norm_num [exCfg]
  have hk : exCfg.nKde = 1 := rfl
  refine ⟨⟨[![4]], [], some 0, [1], finalWeights 1 [1], some [![4]], 3, 0, 2⟩,
    ⟨[![4]], [![4], ![4]], none, [1, 9], finalWeights 1 [1, 9], some [![4]], 6, 0, 4⟩, ?_, ?_⟩
  · rw [hr]
    simp [importanceSample, forN, s0, Nest.samples, ht, MHast.updateModel, hk]
    rfl
  · simp [importanceSample, forN, s1, Nest.samples, ht', MHast.updateModel, hk]
    rfl

end Nested
end Verif
