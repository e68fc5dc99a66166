import Verif.Spec.TimeLimit
import Verif.Model.AIS
import Verif.Model.MPMC
import Verif.Model.Rejection
import Verif.Model.MH
import Verif.Model.Nested
import Verif.Model.MultiNested
import Verif.Model.HiDaisee
import Verif.Model.TPMixture
import Verif.Proof.Loop
import Verif.Props.MultiNestedRun

/-!
# Property C110: a sampling call ends when its time limit has passed
-/

set_option linter.unusedSectionVars false
set_option autoImplicit false

namespace Verif

variable {σ ι : Type*}

theorem whileScript_past (cond : σ → Bool) (late : ι → Bool) (body : ι → σ → σ × Option PyErr) (l : List ι) (s : σ) :
    whileScript cond late body true l s = .done s := by
  cases l <;> simp [whileScript]

theorem whileScript_stops (cond : σ → Bool) (late : ι → Bool) (body : ι → σ → σ × Option PyErr) :
    ∀ (pre : List ι) (it : ι) (rest : List ι) (e : Bool) (s : σ), late it = true →
    whileScript cond late body e (pre ++ it :: rest) s = whileScript cond late body e (pre ++ [it]) s ∧
    ∀ s', whileScript cond late body e (pre ++ [it]) s ≠ .running s'
  | [], it, rest, e, s, h => by
    simp only [List.nil_append, whileScript]
    split_ifs
    · cases hb : body it s with
      | mk s1 o =>
        cases o with
        | none => simp [h, whileScript_past]
        | some err => simp
    · simp
  | p :: pre, it, rest, e, s, h => by
    simp only [List.cons_append, whileScript]
    split_ifs
    · cases hb : body p s with
      | mk s1 o =>
        cases o with
        | none => exact whileScript_stops cond late body pre it rest (late p) s1 h
        | some err => simp
    · simp

theorem whileOut_past (cond : σ → Bool) (late : ι → Bool) (body : ι → σ → Out σ) (l : List ι) (s : σ) :
    whileOut cond late body true l s = .done s := by
  cases l <;> simp [whileOut]

theorem whileOut_ends (cond : σ → Bool) (late : ι → Bool) (body : ι → σ → Out σ) :
    ∀ (pre : List ι) (it : ι) (rest : List ι) (e : Bool) (s : σ), late it = true →
    whileOut cond late body e (pre ++ it :: rest) s = whileOut cond late body e (pre ++ [it]) s
  | [], it, rest, e, s, h => by
    simp only [List.nil_append, whileOut]
    split_ifs
    · cases hb : body it s with
      | done s1 => simp [h, whileOut_past]
      | raised err s1 => rfl
      | running s1 => rfl
    · rfl
  | p :: pre, it, rest, e, s, h => by
    simp only [List.cons_append, whileOut]
    split_ifs
    · cases hb : body p s with
      | done s1 => exact whileOut_ends cond late body pre it rest (late p) s1 h
      | raised err s1 => rfl
      | running s1 => rfl
    · rfl

section AIS
variable {K : Type*} [Field K] [LinearOrder K] {d : ℕ}

/-- **C110** (what holds: DM-AIS, layered AIS) The call is over after the iteration during which the limit passed. Missing
with respect to C110: the samplers of `C110_refuted_nested`, `C110_refuted_multi` and `C110_refuted_hidaisee`. -/
theorem C110_partial_ais (N k L : ℕ) (lo hi : Fin d → K) (q : (Fin d → K) → (Fin d → K) → XF K)
    (target : (Fin d → K) → XF K) (n : ℕ) (expired : Bool) (S : AIS K d) :
    Stops DM.Iter.late (fun script => DM.importanceSample N k q target n expired script S) ∧
    Stops LAIS.Iter.late (fun script => LAIS.importanceSample N k L lo hi q target n expired script S) :=
  ⟨⟨fun pre it rest h => (whileScript_stops _ _ _ pre it rest _ _ h).1,
    fun pre it s h => (whileScript_stops _ _ _ pre it [] _ _ h).2 s⟩,
   ⟨fun pre it rest h => (whileScript_stops _ _ _ pre it rest _ _ h).1,
    fun pre it s h => (whileScript_stops _ _ _ pre it [] _ _ h).2 s⟩⟩

end AIS

/-- **C110** (what holds: M-PMC, rejection sampling) -/
theorem C110_partial_population {d N : ℕ} (k n : ℕ) (target : (Fin d → XF ℝ) → XF ℝ) (expired : Bool) (S : PMC d N)
    (c : Rejection.Cfg d) (idx : ℕ → ℕ) (R : Rejection.Rej d) :
    Stops PMC.Iter.late (fun script => PMC.importanceSample k target n expired script S) ∧
    Stops Rejection.Iter.late (fun script => Rejection.importanceSample c n expired script idx R) := by
  refine ⟨⟨fun pre it rest h => (whileScript_stops _ _ _ pre it rest _ _ h).1,
    fun pre it s h => (whileScript_stops _ _ _ pre it [] _ _ h).2 s⟩, ?_, ?_⟩
  · intro pre it rest h
    simp only [Rejection.importanceSample]
    rw [(whileScript_stops _ _ _ pre it rest _ _ h).1]
  · intro pre it s h
    simp only [Rejection.importanceSample]
    have h2 := (whileScript_stops (fun S : Rejection.Rej d => decide (S.samples.length < n)) Rejection.Iter.late
      (Rejection.body c n) pre it [] expired R h).2
    cases hw : whileScript (fun S : Rejection.Rej d => decide (S.samples.length < n)) Rejection.Iter.late
      (Rejection.body c n) expired (pre ++ [it]) R with
    | running s' => exact absurd hw (h2 s')
    | raised e s' => simp
    | done s' =>
      simp only
      split <;> simp

/-- **C110** (what holds: Metropolis-Hastings) No sample is started after the limit has passed. (The iteration in
progress contains loops of its own, with their own limits.) -/
theorem C110_partial_mh {d : ℕ} (c : MHast.Cfg d) (n : ℕ) (expired : Bool) (idx : ℕ → ℕ) (S : MHast.MH d) :
    EndsWithLate MHast.Iter.late (fun script => MHast.importanceSample c n expired script idx S) := by
  intro pre it rest h
  simp only [MHast.importanceSample]
  rw [whileOut_ends _ _ _ pre it rest _ _ h]

section TP
variable {K : Type*} [Field K] [LinearOrder K] {d : ℕ}

theorem TPSampler.loop_expired (cfg : TPConfig K) (target : Pt K d → XF K) (n : ℕ) (l : List (TPIter K d))
    (S : TPSampler K d) : TPSampler.loop cfg target n true l S =
      (S.T.getSamples cfg.essTarget).map fun _ => (S, true) := by
  cases l <;> unfold TPSampler.loop <;> cases S.T.getSamples cfg.essTarget <;>
    simp [bind, Except.bind, pure, Except.pure, Except.map]

theorem TPSampler.loop_stops (cfg : TPConfig K) (target : Pt K d → XF K) (n : ℕ) :
    ∀ (pre : List (TPIter K d)) (it : TPIter K d) (rest : List (TPIter K d)) (late : Bool) (S : TPSampler K d),
    it.late = true →
    TPSampler.loop cfg target n late (pre ++ it :: rest) S = TPSampler.loop cfg target n late (pre ++ [it]) S ∧
    ∀ S', TPSampler.loop cfg target n late (pre ++ [it]) S ≠ .ok (S', false)
  | [], it, rest, late, S, h => by
    simp only [List.nil_append, TPSampler.loop, bind, Except.bind, pure, Except.pure]
    cases hg : S.T.getSamples cfg.essTarget with
    | error e => simp
    | ok o =>
      simp only
      split_ifs
      · cases hi : TPSampler.iterate cfg target it S with
        | error e => simp
        | ok S1 =>
          simp only [h, TPSampler.loop_expired]
          refine ⟨?_, ?_⟩
          · have := TPSampler.loop_expired cfg target n [] S1
            unfold TPSampler.loop at this
            simp only [bind, Except.bind, pure, Except.pure] at this
            exact this.symm
          · cases hg1 : S1.T.getSamples cfg.essTarget <;> simp
      · simp
  | p :: pre, it, rest, late, S, h => by
    simp only [List.cons_append, TPSampler.loop, bind, Except.bind, pure, Except.pure]
    cases hg : S.T.getSamples cfg.essTarget with
    | error e => simp
    | ok o =>
      simp only
      split_ifs
      · cases hi : TPSampler.iterate cfg target p S with
        | error e => simp
        | ok S1 => exact TPSampler.loop_stops cfg target n pre it rest p.late S1 h
      · simp

theorem TPSampler.loopMix_expired (cfg : TPConfig K) (dmin dmax : Pt K d) (target : Pt K d → XF K) (fuel n : ℕ)
    (l : List (TPMixIter K d)) (S : TPSampler K d) : TPSampler.loopMix cfg dmin dmax target fuel n true l S =
      (S.T.getSamples cfg.essTarget).map fun _ => (S, true) := by
  cases l <;> unfold TPSampler.loopMix <;> cases S.T.getSamples cfg.essTarget <;>
    simp [bind, Except.bind, pure, Except.pure, Except.map]

theorem TPSampler.loopMix_stops (cfg : TPConfig K) (dmin dmax : Pt K d) (target : Pt K d → XF K) (fuel n : ℕ) :
    ∀ (pre : List (TPMixIter K d)) (it : TPMixIter K d) (rest : List (TPMixIter K d)) (late : Bool)
      (S : TPSampler K d), it.late = true →
    TPSampler.loopMix cfg dmin dmax target fuel n late (pre ++ it :: rest) S =
      TPSampler.loopMix cfg dmin dmax target fuel n late (pre ++ [it]) S ∧
    ∀ S', TPSampler.loopMix cfg dmin dmax target fuel n late (pre ++ [it]) S ≠ .ok (S', false)
  | [], it, rest, late, S, h => by
    simp only [List.nil_append, TPSampler.loopMix, bind, Except.bind, pure, Except.pure]
    cases hg : S.T.getSamples cfg.essTarget with
    | error e => simp
    | ok o =>
      simp only
      split_ifs
      · cases hi : TPSampler.iterateMix cfg dmin dmax target fuel n o.2.length it S with
        | error e => simp
        | ok S1 =>
          simp only [h, TPSampler.loopMix_expired]
          refine ⟨?_, ?_⟩
          · have := TPSampler.loopMix_expired cfg dmin dmax target fuel n [] S1
            unfold TPSampler.loopMix at this
            simp only [bind, Except.bind, pure, Except.pure] at this
            exact this.symm
          · cases hg1 : S1.T.getSamples cfg.essTarget <;> simp
      · simp
  | p :: pre, it, rest, late, S, h => by
    simp only [List.cons_append, TPSampler.loopMix, bind, Except.bind, pure, Except.pure]
    cases hg : S.T.getSamples cfg.essTarget with
    | error e => simp
    | ok o =>
      simp only
      split_ifs
      · cases hi : TPSampler.iterateMix cfg dmin dmax target fuel n o.2.length p S with
        | error e => simp
        | ok S1 => exact TPSampler.loopMix_stops cfg dmin dmax target fuel n pre it rest p.late S1 h
      · simp

/-- **C110** (what holds: tree pyramid, both schemes) The call is over after the iteration during which the limit passed:
nothing that comes later is used, and the outcome is an error or returned samples (`some`). -/
theorem C110_partial_tree (cfg : TPConfig K) (dmin dmax : Pt K d) (target : Pt K d → XF K) (fuel n : ℕ) (u0 : Pt K d)
    (S : TPSampler K d) :
    (EndsWithLate TPIter.late (fun script => TPSampler.importanceSampleSimple cfg target n u0 script S) ∧
      ∀ pre it S', it.late = true →
        TPSampler.importanceSampleSimple cfg target n u0 (pre ++ [it]) S ≠ .ok (S', none)) ∧
    (EndsWithLate TPMixIter.late
        (fun script => TPSampler.importanceSampleMix cfg dmin dmax target fuel ⟨n, u0, script⟩ S) ∧
      ∀ pre it S', it.late = true →
        TPSampler.importanceSampleMix cfg dmin dmax target fuel ⟨n, u0, pre ++ [it]⟩ S ≠ .ok (S', none)) := by
  refine ⟨⟨?_, ?_⟩, ?_, ?_⟩
  · intro pre it rest h
    simp only [TPSampler.importanceSampleSimple, bind, Except.bind]
    cases TPSampler.initRoot target u0 S with
    | error e => rfl
    | ok S0 => simp only; rw [(TPSampler.loop_stops cfg target n pre it rest false S0 h).1]
  · intro pre it S' h
    simp only [TPSampler.importanceSampleSimple, bind, Except.bind, pure, Except.pure]
    cases TPSampler.initRoot target u0 S with
    | error e => simp
    | ok S0 =>
      simp only
      have h2 := (TPSampler.loop_stops cfg target n pre it [] false S0 h).2
      cases hl : TPSampler.loop cfg target n false (pre ++ [it]) S0 with
      | error e => simp
      | ok o =>
        obtain ⟨S1, b⟩ := o
        cases b with
        | false => exact absurd hl (h2 S1)
        | true =>
          simp only [if_true]
          cases S1.updateModel with
          | error e => simp
          | ok S2 =>
            simp only
            cases S2.T.getSamples cfg.essTarget <;> simp
  · intro pre it rest h
    simp only [TPSampler.importanceSampleMix, bind, Except.bind]
    cases TPSampler.initRootMix target u0 S with
    | error e => rfl
    | ok S0 => simp only; rw [(TPSampler.loopMix_stops cfg dmin dmax target fuel n pre it rest false S0 h).1]
  · intro pre it S' h
    simp only [TPSampler.importanceSampleMix, bind, Except.bind, pure, Except.pure]
    cases TPSampler.initRootMix target u0 S with
    | error e => simp
    | ok S0 =>
      simp only
      have h2 := (TPSampler.loopMix_stops cfg dmin dmax target fuel n pre it [] false S0 h).2
      cases hl : TPSampler.loopMix cfg dmin dmax target fuel n false (pre ++ [it]) S0 with
      | error e => simp
      | ok o =>
        obtain ⟨S1, b⟩ := o
        cases b with
        | false => exact absurd hl (h2 S1)
        | true =>
          simp only [if_true]
          cases S1.updateModel with
          | error e => simp
          | ok S2 =>
            simp only
            cases S2.T.getSamples cfg.essTarget <;> simp

end TP

/-! ### Samplers that do not stop -/

section Nested
open Nested
variable {d : ℕ}

/-- Every reading of the clock is past the limit (which is positive). -/
def Nested.Env.AllLate (e : Nested.Env d) : Prop := e.expired = false ∧ e.tries ≠ [] ∧ ∀ t ∈ e.tries, t.late = true

theorem Nested.resample_late (c : Nested.Cfg d) (x : Fin d → ℝ) (value : ℝ) (e : Nested.Env d) (he : e.AllLate)
    (S : Nest d) : ∃ p, Nested.resample c x value e S = .done p ∧ S.numPi + 1 ≤ p.1.numPi ∧ p.1.live = S.live ∧
      p.1.own = S.own ∧ p.1.view = S.view := by
  obtain ⟨h1, h2, h3⟩ := he
  unfold Nested.resample
  rw [h1]
  cases ht : e.tries with
  | nil => exact absurd ht h2
  | cons t ts =>
    have hl := h3 t (by simp [ht])
    simp only [whileScript, hl, whileScript_past]
    split_ifs
    · exact ⟨_, rfl, by simp [Nested.count], rfl, rfl, rfl⟩
    · exact ⟨_, rfl, by simp [Nested.count], rfl, rfl, rfl⟩

theorem Nested.step_late (c : Nested.Cfg d) (e : Nested.Env d) (he : e.AllLate) (S : Nest d) (vs : List ℝ) (hv : vs ≠ []) :
    ∃ S' vs', Nested.step c e (S, vs) = .done (S', vs') ∧ S.numPi + 1 ≤ S'.numPi ∧ vs'.length = vs.length ∧
      S'.samples ≠ [] := by
  cases vs with
  | nil => exact absurd rfl hv
  | cons v vs =>
    unfold Nested.step
    simp only
    obtain ⟨p, h1, h2, h3, h4, h5⟩ := Nested.resample_late c
      (({ addSample ((v :: vs).idxOf (minOf v vs)) S with
          L := (addSample ((v :: vs).idxOf (minOf v vs)) S).L ++ [minOf v vs] } : Nest d).live.getD
        (e.r % ({ addSample ((v :: vs).idxOf (minOf v vs)) S with
          L := (addSample ((v :: vs).idxOf (minOf v vs)) S).L ++ [minOf v vs] } : Nest d).live.length) 0)
      (minOf v vs) e he
      ({ addSample ((v :: vs).idxOf (minOf v vs)) S with
          L := (addSample ((v :: vs).idxOf (minOf v vs)) S).L ++ [minOf v vs] } : Nest d)
    rw [h1]
    refine ⟨_, _, rfl, ?_, by simp, ?_⟩
    · simp only
      refine le_trans (le_of_eq ?_) h2
      simp only
      unfold addSample
      split_ifs <;> rfl
    · simp only at h4 h5
      unfold Nest.samples
      simp only [h4, h5]
      unfold addSample
      split_ifs <;> simp

theorem Nested.loop_late (c : Nested.Cfg d) (env : ℕ → Nested.Env d) (he : ∀ i, (env i).AllLate) (S : Nest d) (vs : List ℝ)
    (hv : vs ≠ []) : ∀ m, ∃ S' vs', forN (fun i => Nested.step c (env i)) m (S, vs) = .done (S', vs') ∧
      S.numPi + m ≤ S'.numPi ∧ vs'.length = vs.length ∧ (0 < m → S'.samples ≠ [])
  | 0 => ⟨S, vs, rfl, le_rfl, rfl, by simp⟩
  | m + 1 => by
    obtain ⟨S1, v1, h1, h2, h3, _⟩ := Nested.loop_late c env he S vs hv m
    obtain ⟨S2, v2, g1, g2, g3, g4⟩ := Nested.step_late c (env m) (he m) S1 v1 (by
      rw [← List.length_pos_iff] at hv ⊢; omega)
    refine ⟨S2, v2, by simp [forN, h1, g1], by omega, by omega, fun _ => g4⟩

/-- The code violates **C110**: nested sampling starts a new time limit for every point. Even if every single reading of
the clock is past the limit, the call goes on for as many iterations as samples were asked for and evaluates the target
in each of them. -/
theorem C110_refuted_nested (c : Nested.Cfg d) (hk : c.nKde ≠ 0) (n : ℕ) (env : ℕ → Nested.Env d)
    (he : ∀ i, (env i).AllLate) (idx : ℕ → ℕ) (S : Nest d) (hl : S.live ≠ []) (hn : S.samples.length < n) :
    ∃ S', Nested.importanceSample c n env idx S = .done S' ∧
      S.numPi + S.live.length + (n - S.samples.length) ≤ S'.numPi := by
  obtain ⟨S1, v1, h1, h2, _, h4⟩ := Nested.loop_late c env he { S with numPi := S.numPi + S.live.length }
    (S.live.map c.target) (by simpa using hl) (n - S.samples.length)
  unfold Nested.importanceSample
  rw [h1]
  simp only
  rw [if_neg (h4 (by omega))]
  have hs : ({ S1 with weights := finalWeights c.N S1.L } : Nest d).samples = S1.samples := rfl
  rw [hs]
  unfold MHast.updateModel
  rw [if_neg (h4 (by omega)), if_neg hk]
  exact ⟨_, rfl, h2⟩

/-- An environment of the kind used in `C110_refuted_nested`, and an object with a live point. -/
example : Nested.Env.AllLate (d := 1) ⟨0, 0, false, [⟨0, true⟩]⟩ ∧
    ∃ c : Nested.Cfg 1, c.nKde ≠ 0 ∧ (Nested.reset c fun _ _ => 1 / 2).live ≠ [] ∧
      (Nested.reset c fun _ _ => 1 / 2).samples.length < 5 :=
  ⟨⟨rfl, by simp, by simp⟩, ⟨0, 1, fun _ => 1, 1, 1⟩, by simp, by simp [Nested.reset], by simp [Nested.reset, Nest.samples]⟩

theorem MultiNested.resample_count (c : MultiNested.Cfg d) (el : MultiNested.Ell d) (value : ℝ) (e : MultiNested.Env d)
    (S : Nest d) : S.numPi + 1 ≤ (MultiNested.resample c el value e S).state.1.numPi := by
  unfold MultiNested.resample
  exact whileScript_inv (fun p : Nest d × (Fin d → ℝ) × ℝ => S.numPi + 1 ≤ p.1.numPi)
    (fun t p h _ => by simp only [Nested.count]; omega) _ _ _ (by simp [Nested.count])

theorem MultiNested.step_count (c : MultiNested.Cfg d) (el : MultiNested.Ell d) (e : MultiNested.Env d)
    (p p' : Nest d × List ℝ) (h : MultiNested.step c el e p = .done p') : p.1.numPi + 1 ≤ p'.1.numPi := by
  unfold MultiNested.step at h
  split at h
  · cases h
  · rename_i v vs hv
    simp only at h
    split at h
    · cases h
    · cases h
    · rename_i q hq
      simp only [Out.done.injEq] at h
      have := MultiNested.resample_count c el (minOf v vs) e
        ({ addSample (el.idx.getD ((v :: vs).idxOf (minOf v vs)) 0) p.1 with
          L := (addSample (el.idx.getD ((v :: vs).idxOf (minOf v vs)) 0) p.1).L ++ [minOf v vs] } : Nest d)
      rw [hq] at this
      rw [← h]
      refine le_trans (le_of_eq ?_) this
      simp only
      unfold addSample
      split_ifs <;> rfl

/-- The code violates **C110**: multi-nested sampling does the same. Whatever the clock says, a call that returns has run
through all its iterations (at least one per ellipsoid, and as many as needed for the missing samples up to rounding) and
evaluated the target in each of them. -/
theorem C110_refuted_multi (c : MultiNested.Cfg d) (n : ℕ) (km : ℕ → ℕ → ℕ) (fuel : ℕ) (env : ℕ → MultiNested.Env d)
    (idx : ℕ → ℕ) (S S' : Nest d) (h : MultiNested.importanceSample c n km fuel env idx S = .done S') :
    ∃ ells, MultiNested.recursiveClustering c km fuel S.live = some (.ok ells) ∧
      S.numPi + S.live.length + ells.length * max ((n - S.samples.length) / ells.length) 1 ≤ S'.numPi := by
  have loop : ∀ (f : ℕ → Nest d × List ℝ → Out (Nest d × List ℝ)),
      (∀ i p p', f i p = .done p' → p.1.numPi + 1 ≤ p'.1.numPi) → ∀ m p p', forN f m p = .done p' →
      p.1.numPi + m ≤ p'.1.numPi := by
    intro f hf m
    induction m with
    | zero =>
      intro p p' h
      simp only [forN, Out.done.injEq] at h
      simp [h]
    | succ m ih =>
      intro p p' h
      simp only [forN] at h
      split at h
      · rename_i q hq
        have h1 := ih _ _ hq
        have h2 := hf _ _ _ h
        omega
      · cases h
      · cases h
  unfold MultiNested.importanceSample at h
  simp only at h
  split at h
  · cases h
  · cases h
  · rename_i ells hells
    refine ⟨ells, hells, ?_⟩
    split at h
    · cases h
    · cases h
    · rename_i p hp
      have h1 := loop _ (fun i p p' h => MultiNested.step_count c _ _ p p' h) _ _ _ hp
      simp only [MultiNested.perEll] at h1
      split_ifs at h
      split at h
      · cases h
      · simp only [Out.done.injEq] at h
        rw [← h]
        exact h1

/-- A call that returns. -/
example : ∃ S' : Nest 1, MultiNested.importanceSample MultiNested.exCfg 3 MultiNested.exKm 3 (fun _ => ⟨![0], false, []⟩)
    (fun _ => 0) (MultiNested.reset MultiNested.exCfg MultiNested.exUs) = .done S' := by
  obtain ⟨S', h, -⟩ := MultiNested.ex_run
  exact ⟨S', h⟩

end Nested

section HiD
variable {K : Type*} [Field K] [LinearOrder K] {d : ℕ}

theorem HiD.iterate_count {c : HiD.Cfg K} {target : Pt K d → XF K} {t : ℕ} {it : HiD.Iter K d} {T T' : HiD.Tree K d}
    {k : ℕ} (h : HiD.iterate c target t it T = .ok (T', k)) : 1 ≤ k := by
  unfold HiD.iterate at h
  split at h
  · cases h
  · split at h
    · cases h
    · simp only at h
      split_ifs at h
      · cases hs : HiD.Tree.split _ _ it.j target with
        | error e => rw [hs] at h; simp [Except.map] at h
        | ok T3 =>
          rw [hs] at h
          simp only [Except.map, Except.ok.injEq, Prod.mk.injEq] at h
          omega
      · simp only [Except.ok.injEq, Prod.mk.injEq] at h
        omega

theorem HiD.iterations_count {c : HiD.Cfg K} {target : Pt K d → XF K} : ∀ (its : List (HiD.Iter K d)) (t : ℕ)
    (S S' : HiD.Sampler K d), HiD.iterations c target t its S = .ok S' → S.numPi + its.length ≤ S'.numPi
  | [], t, S, S', h => by
    simp only [HiD.iterations, Except.ok.injEq] at h
    simp [h]
  | it :: its, t, S, S', h => by
    simp only [HiD.iterations] at h
    cases hi : HiD.iterate c target t it S.T with
    | error e => simp [hi] at h
    | ok o =>
      obtain ⟨T, k⟩ := o
      simp only [hi] at h
      have h1 := HiD.iterations_count its _ _ _ h
      have h2 := HiD.iterate_count hi
      simp only [List.length_cons] at h1 ⊢
      omega

/-- The code violates **C110**: HiDaisee never reads the clock; a call that returns has evaluated the target at least once
per missing sample, whatever its time limit. -/
theorem C110_refuted_hidaisee (c : HiD.Cfg K) (target : Pt K d → XF K) (n : ℕ) (its : ℕ → HiD.Iter K d)
    (S S' : HiD.Sampler K d) (h : HiD.importanceSample c target n its S = .ok S') :
    S.numPi + (n - S.samples.length) ≤ S'.numPi := by
  unfold HiD.importanceSample at h
  split at h
  · cases h
  · rename_i S1 h1
    have := HiD.iterations_count _ _ _ _ h1
    simp only [List.length_map, List.length_range] at this
    unfold HiD.updateModel at h
    cases hs : setWeights S1.T.leafNodes.length (S1.T.leafNodes.map HiD.Node.mean) with
    | error e => rw [hs] at h; simp [Except.map] at h
    | ok w =>
      rw [hs] at h
      simp only [Except.map, Except.ok.injEq] at h
      rw [← h]
      exact this

/-- A call for three samples that returns. -/
example : (HiD.importanceSample (⟨fun _ _ => XF.fin 0, 100, 1/2⟩ : HiD.Cfg ℚ) (fun x : Pt ℚ 1 => XF.fin (x 0)) 3
    (fun _ => ⟨fun _ => 0, ![1/4], 0⟩) (HiD.reset ![0] ![1])).toBool = true := by
  decide +kernel

end HiD
end Verif
