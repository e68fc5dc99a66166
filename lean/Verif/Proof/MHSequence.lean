import Verif.Spec.MHConsistent
import Verif.Spec.MH
import Verif.Proof.MHChain

/-!
# The samples of a long run of Metropolis-Hastings are the states of the chain
-/

set_option linter.unusedSectionVars false
set_option autoImplicit false

namespace Verif
namespace MHast

open Adaptive

variable {d : ℕ} {c : Cfg d}

theorem seen_split {ξ : ℕ → (Fin d → ℝ) × ℝ} {k : ℕ} {rej rest : List (Try d)} {t : Try d}
    (h : seen ξ k = rej ++ t :: rest) :
    t = ⟨(ξ rej.length).1, (ξ rej.length).2, false⟩ ∧ rej.length < k ∧
      ∀ i < rej.length, (⟨(ξ i).1, (ξ i).2, false⟩ : Try d) ∈ rej := by
  have hlen : k = rej.length + (rest.length + 1) := by
    have := congrArg List.length h
    simpa [seen] using this
  have hget : ∀ i, (seen ξ k)[i]? = if i < k then some ⟨(ξ i).1, (ξ i).2, false⟩ else none := by
    intro i
    unfold seen
    by_cases hi : i < k <;> simp [hi]
  refine ⟨?_, by omega, fun i hi => ?_⟩
  · have := hget rej.length
    rw [h, if_pos (by omega)] at this
    simpa using this
  · have h1 := hget i
    rw [h, if_pos (by omega), List.getElem?_append_left hi] at h1
    exact List.mem_of_getElem? h1

/-- A step with the first `k` tries of a sequence. -/
theorem advance_seen (l : Label) (ξ : ℕ → (Fin d → ℝ) × ℝ) (k : ℕ) (S : MH d) :
    (advance c l ⟨false, seen ξ k⟩ S).Sat
      (fun S' => S'.cur = next c S.cur ξ ∧ S'.samples = S.samples ∧ S'.isInit = S.isInit ∧ S'.trajT ≠ [] ∧
        ∃ z, S'.cur = propose c S.cur z)
      (fun _ => False) (fun _ => ∀ t < k, accepts c S.cur (propose c S.cur (ξ t).1) (ξ t).2 = false) := by
  rcases advance_cases c l ⟨false, seen ξ k⟩ S with ⟨-, e, h⟩ | ⟨h, -⟩ | ⟨h, -⟩ | ⟨-, rej, t, rest, h2, h3, h4, e⟩
  · rw [e]
    intro t ht
    exact (h ⟨(ξ t).1, (ξ t).2, false⟩ (by simp only [seen, List.mem_map, List.mem_range]; exact ⟨t, ht, rfl⟩)).1
  · cases h
  · cases h
  · rw [e]
    obtain ⟨h5, h6, h7⟩ := seen_split h2
    have hacc : accepts c S.cur (propose c S.cur (ξ rej.length).1) (ξ rej.length).2 = true := by
      rw [h5] at h4
      rcases h4 with h4 | h4
      · exact h4
      · cases h4
    refine ⟨?_, rfl, rfl, by simp [logged], t.z, rfl⟩
    rw [next_eq hacc fun i hi => (h3 _ (h7 i hi)).1]
    show propose c S.cur t.z = _
    rw [h5]

/-- `sample(1)` after the burn in. -/
theorem sample_one (burn : ℕ → List (Try d)) (env : ℕ → ℕ → ℕ → StepEnv d) (S : MH d) (h : S.isInit = true) :
    sample c 1 burn env S = mcmcIter c (env 0 0) (S, []) := by
  unfold sample burnIn
  rw [if_pos h]
  simp only [forN, sampleIter, mcmc, mcmcIter]
  cases forN (fun j S => advance c .decorrelation (env 0 0 j) S) c.nSteps S with
  | running S' => rfl
  | raised e S' => rfl
  | done S' =>
    simp only
    cases relabel .sample S' <;> rfl

theorem body_burn {burn : ℕ → List (Try d)} {S S0 : MH d} (h : burnIn c burn S = .done S0) (h0 : S0.isInit = true)
    (it : Iter d) (hb : it.burn = burn) : body c it S = body c it S0 := by
  have e : burnIn c burn S0 = .done S0 := by
    unfold burnIn
    rw [if_pos h0]
  unfold body sample
  rw [hb, h, e]

theorem burnIn_init {burn : ℕ → List (Try d)} {S S0 : MH d} (h : burnIn c burn S = .done S0) :
    S0.isInit = true ∧ S0.samples = S.samples := by
  unfold burnIn at h
  split at h
  · cases h
    exact ⟨by assumption, rfl⟩
  · have hk := forN_inv (fun _ S1 => S1.samples = S.samples) (fun _ => True) (fun _ => True)
      (f := fun j S => advance c .burnIn ⟨false, burn j⟩ S) c.nBurnin (fun j _ S1 h1 => by
        rcases advance_cases c .burnIn ⟨false, burn j⟩ S1 with ⟨-, e, -⟩ | ⟨-, -, e⟩ | ⟨-, -, e⟩ | ⟨-, rej, t, rest, -, -, -, e⟩
        · rw [e]; trivial
        · rw [e]; trivial
        · rw [e]; exact h1
        · rw [e]; exact h1) S rfl
    revert h hk
    cases forN (fun j S => advance c .burnIn ⟨false, burn j⟩ S) c.nBurnin S with
    | running S' => intro h; cases h
    | raised e S' => intro h; cases h
    | done S' =>
      intro h hk
      cases h
      exact ⟨rfl, hk⟩

/-- All tries of the first `m` steps of an iteration are rejected at some step. -/
def Stuck (c : Cfg d) (x : Fin d → ℝ) (ω : ℕ → ℕ → (Fin d → ℝ) × ℝ) (m k : ℕ) : Prop :=
  ∃ j < m, ∀ t < k, accepts c (clip c.lo c.hi (st (chain c) x ω j))
    (propose c (clip c.lo c.hi (st (chain c) x ω j)) (ω j t).1) (ω j t).2 = false

theorem propose_box (hbox : ∀ i, c.lo i ≤ c.hi i) (x z : Fin d → ℝ) : InBox c.lo c.hi (propose c x z) :=
  clip_box hbox _

/-- One iteration of `importance_sample` after the burn in: the next state of the chain is appended to the samples. -/
theorem body_seen (hbox : ∀ i, c.lo i ≤ c.hi i) (hm : 0 < c.nSteps) (burn : ℕ → List (Try d))
    (ω : ℕ → ℕ → (Fin d → ℝ) × ℝ) (k : ℕ) {S : MH d} (hS : S.isInit = true) (hx : InBox c.lo c.hi S.cur) :
    (body c (iterOf burn ω k) S).Sat
      (fun S' => S'.isInit = true ∧ S'.cur = st (chain c) S.cur ω c.nSteps ∧ InBox c.lo c.hi S'.cur ∧
        S'.samples = S.samples ++ [st (chain c) S.cur ω c.nSteps])
      (fun _ => False) (fun _ => Stuck c S.cur ω c.nSteps k) := by
  have key := mcmcIter_inv (c := c) (R := fun _ => False) (J := fun _ => Stuck c S.cur ω c.nSteps k)
    (fun j S2 => S2.cur = st (chain c) S.cur ω j ∧ InBox c.lo c.hi S2.cur ∧ S2.samples = S.samples ∧ S2.isInit = true ∧
      (0 < j → S2.trajT ≠ [])) (fun j => ⟨false, seen (ω j) k⟩) []
    (fun S' l => S'.isInit = true ∧ S'.cur = st (chain c) S.cur ω c.nSteps ∧ InBox c.lo c.hi S'.cur ∧
      S'.samples = S.samples ∧ l = [st (chain c) S.cur ω c.nSteps]) ?_ ?_ ?_ S ⟨rfl, hx, rfl, hS, by simp⟩
  · unfold body
    rw [sample_one _ _ _ hS]
    show (match mcmcIter c (fun j => ⟨false, seen (ω j) k⟩) (S, []) with
      | .running p => Out.running p.1
      | .raised e p => Out.raised e p.1
      | .done p => Out.done { p.1 with samples := p.1.samples ++ p.2 }).Sat _ _ _
    revert key
    cases mcmcIter c (fun j => ⟨false, seen (ω j) k⟩) (S, []) with
    | running p => exact fun h => h
    | raised e p => exact fun h => h
    | done p =>
      rintro ⟨h1, h2, h3, h4, h5⟩
      exact ⟨h1, h2, h3, by show p.1.samples ++ p.2 = _; rw [h4, h5]⟩
  · rintro j hj S2 ⟨h1, h2, h3, h4, -⟩
    refine (advance_seen .decorrelation (ω j) k S2).mono ?_ (fun _ h => h) ?_
    · rintro S3 ⟨g1, g2, g3, g4, z, g5⟩
      refine ⟨?_, ?_, by rw [g2, h3], by rw [g3, h4], fun _ => g4⟩
      · rw [g1, st, chain, ← h1, clip_self h2]
      · rw [g5]
        exact propose_box hbox _ _
    · intro _ h
      refine ⟨j, hj, ?_⟩
      rw [← h1, clip_self h2]
      exact h
  · rintro S2 ⟨h1, h2, h3, h4, -⟩ -
    exact ⟨h4, h1, h2, h3, by rw [List.nil_append, h1]⟩
  · rintro S2 ⟨-, -, -, -, h5⟩ h6
    exact h5 hm h6

/-- The states of the chain at the ends of the iterations. -/
noncomputable def visited (c : Cfg d) (x : Fin d → ℝ) (ω : Tape d) (i : ℕ) : Fin d → ℝ :=
  st (fun y ξ => st (chain c) y ξ c.nSteps) x ω i

/-- The object after `i` iterations. -/
def After (c : Cfg d) (S0 : MH d) (ω : Tape d) (i : ℕ) (S : MH d) : Prop :=
  S.isInit = true ∧ S.cur = visited c S0.cur ω i ∧ InBox c.lo c.hi S.cur ∧
    S.samples = S0.samples ++ (List.range i).map fun j => visited c S0.cur ω (j + 1)

theorem loop_seen (hbox : ∀ i, c.lo i ≤ c.hi i) (hm : 0 < c.nSteps) (burn : ℕ → List (Try d)) (ω : Tape d) (k n : ℕ)
    (S0 : MH d) : ∀ (r i : ℕ) (S : MH d), After c S0 ω i S →
    (whileOut (fun S => decide (S.samples.length < n)) Iter.late (body c) false
      ((List.range' i r).map fun i => iterOf burn (ω i) k) S).Sat
      (fun S' => ∃ j, After c S0 ω j S' ∧ n ≤ S'.samples.length ∧ (j = i ∨ S'.samples.length ≤ n))
      (fun _ => False)
      (fun _ => S.samples.length + r < n ∨ ∃ j < i + r, Stuck c (visited c S0.cur ω j) (ω j) c.nSteps k)
  | 0, i, S, hS => by
    simp only [List.range'_zero, List.map_nil, whileOut]
    by_cases h : S.samples.length < n
    · simp only [h, decide_true, Bool.not_false, Bool.and_self, if_true]
      exact Or.inl (by omega)
    · simp only [h, decide_false, Bool.false_and]
      exact ⟨i, hS, not_lt.1 h, Or.inl rfl⟩
  | r + 1, i, S, hS => by
    rw [List.range'_succ, List.map_cons, whileOut]
    by_cases h : S.samples.length < n
    · simp only [h, decide_true, Bool.not_false, Bool.and_self, if_true]
      have hb := body_seen hbox hm burn (ω i) k hS.1 hS.2.2.1
      revert hb
      cases body c (iterOf burn (ω i) k) S with
      | running S' =>
        intro hb
        refine Or.inr ⟨i, by omega, ?_⟩
        rw [← hS.2.1]
        exact hb
      | raised e S' => exact fun hb => hb
      | done S' =>
        rintro ⟨h1, h2, h3, h4⟩
        have hv : st (chain c) S.cur (ω i) c.nSteps = visited c S0.cur ω (i + 1) := by
          rw [hS.2.1]
          rfl
        have hS' : After c S0 ω (i + 1) S' := by
          refine ⟨h1, by rw [h2, hv], h3, ?_⟩
          rw [h4, hS.2.2.2, hv, List.range_succ, List.map_append, List.map_singleton, List.append_assoc]
        have hlen : S'.samples.length = S.samples.length + 1 := by
          rw [h4]
          simp
        refine (loop_seen hbox hm burn ω k n S0 r (i + 1) S' hS').mono ?_ (fun _ h => h) ?_
        · rintro S'' ⟨j, g1, g2, g3⟩
          refine ⟨j, g1, g2, Or.inr ?_⟩
          rcases g3 with rfl | g3
          · have e1 : S''.samples.length = S'.samples.length := by
              rw [g1.2.2.2, hS'.2.2.2]
            omega
          · exact g3
        · rintro _ (g | g)
          · exact Or.inl (by omega)
          · obtain ⟨j, g1, g2⟩ := g
            exact Or.inr ⟨j, by omega, g2⟩
    · simp only [h, decide_false, Bool.false_and]
      exact ⟨i, hS, not_lt.1 h, Or.inl rfl⟩

/-- What `importance_sample(target, n)` returns, for `n` beyond the samples the object already has. -/
theorem run_seen (hbox : ∀ i, c.lo i ≤ c.hi i) (hm : 0 < c.nSteps) {burn : ℕ → List (Try d)} (ω : Tape d) (k n : ℕ)
    (idx : ℕ → ℕ) {S S0 : MH d} (hb : burnIn c burn S = .done S0) (hx : InBox c.lo c.hi S0.cur) (hn : S.samples.length < n) :
    (∀ S', importanceSample c n false (scriptOf burn ω k n) idx S = .done S' →
      S'.samples = S.samples ++ (List.range (n - S.samples.length)).map fun j => visited c S0.cur ω (j + 1)) ∧
    (0 < c.nKde → (∀ j < n, ¬ Stuck c (visited c S0.cur ω j) (ω j) c.nSteps k) →
      ∃ S', importanceSample c n false (scriptOf burn ω k n) idx S = .done S') := by
  obtain ⟨h0, hs⟩ := burnIn_init hb
  have hA : After c S0 ω 0 S0 := ⟨h0, rfl, hx, by simp⟩
  have key := loop_seen hbox hm burn ω k n S0 n 0 S0 hA
  have e : whileOut (fun S => decide (S.samples.length < n)) Iter.late (body c) false (scriptOf burn ω k n) S =
      whileOut (fun S => decide (S.samples.length < n)) Iter.late (body c) false
        ((List.range' 0 n).map fun i => iterOf burn (ω i) k) S0 := by
    unfold scriptOf
    rw [List.range_eq_range']
    obtain ⟨n', rfl⟩ : ∃ n', n = n' + 1 := ⟨n - 1, by omega⟩
    rw [List.range'_succ, List.map_cons, whileOut, whileOut]
    simp only [hs, hn, decide_true, Bool.not_false, Bool.and_self, if_true]
    rw [body_burn hb h0 _ rfl]
  unfold importanceSample
  rw [e]
  revert key
  cases whileOut (fun S => decide (S.samples.length < n)) Iter.late (body c) false
        ((List.range' 0 n).map fun i => iterOf burn (ω i) k) S0 with
  | running S1 =>
    rintro (h | ⟨j, hj, h⟩)
    · omega
    · constructor
      · intro S' h'
        cases h'
      · exact fun _ h' => absurd h (h' j (by omega))
  | raised e S1 => exact fun h => h.elim
  | done S1 =>
    rintro ⟨j, h1, h2, h3⟩
    have hlen : S1.samples.length = S.samples.length + j := by
      rw [h1.2.2.2, hs]
      simp
    have hj : j = n - S.samples.length := by
      rcases h3 with rfl | h3 <;> omega
    have hsam : S1.samples = S.samples ++ (List.range (n - S.samples.length)).map fun j => visited c S0.cur ω (j + 1) := by
      rw [h1.2.2.2, hs, hj]
    have hne : S1.samples ≠ [] := by
      intro h
      rw [h] at h2
      simp only [List.length_nil] at h2
      omega
    constructor
    · intro S' h
      simp only at h
      cases hu : updateModel c.nKde idx S1.samples with
      | error e => rw [hu] at h; cases h
      | ok m =>
        rw [hu] at h
        cases h
        exact hsam
    · intro hk _
      simp only [updateModel, hne, if_false, hk.ne']
      exact ⟨_, rfl⟩

end MHast
end Verif
