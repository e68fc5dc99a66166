import Verif.Model.MH
import Verif.Proof.Loop

/-!
# Lemmas on Metropolis-Hastings steps
-/

set_option linter.unusedSectionVars false
set_option autoImplicit false

namespace Verif
namespace MHast

variable {d : ℕ}

/-- The object after the tries `ts` from `x`, all of them labelled as rejected. -/
noncomputable def after (c : Cfg d) (x : Fin d → ℝ) (S : MH d) (ts : List (Try d)) : MH d :=
  { S with
    trajS := S.trajS ++ ts.map fun t => propose c x t.z
    trajT := S.trajT ++ List.replicate ts.length .reject
    numQ := S.numQ + ts.length
    numPi := S.numPi + 2 * ts.length
    numQEval := S.numQEval + 2 * ts.length }

/-- The object after the rejected tries `rej` and a last try `t` that gets the label `l`. -/
noncomputable def logged (c : Cfg d) (x : Fin d → ℝ) (S : MH d) (rej : List (Try d)) (t : Try d) (l : Label) : MH d :=
  { S with
    trajS := S.trajS ++ (rej.map fun t => propose c x t.z) ++ [propose c x t.z]
    trajT := S.trajT ++ List.replicate rej.length .reject ++ [l]
    numQ := S.numQ + (rej.length + 1)
    numPi := S.numPi + 2 * (rej.length + 1)
    numQEval := S.numQEval + 2 * (rej.length + 1) }

theorem after_nil (c : Cfg d) (x : Fin d → ℝ) (S : MH d) : after c x S [] = S := by simp [after]

theorem after_cons (c : Cfg d) (x : Fin d → ℝ) (S : MH d) (t : Try d) (ts : List (Try d)) (p : (Fin d → ℝ) × Bool) :
    after c x (tryBody c x t (S, p)).1.1 ts = after c x S (t :: ts) := by
  simp only [after, tryBody, List.map_cons, List.length_cons, List.replicate_succ, List.append_assoc,
    List.singleton_append, MH.mk.injEq, true_and]
  omega

/-- A run of the inner loop. -/
theorem loop_cases (c : Cfg d) (x : Fin d → ℝ) : ∀ (ts : List (Try d)) (closed : Bool) (S : MH d) (y : Fin d → ℝ),
    (∃ y' b, whileScript (fun p => !p.2.2) Try.late (tryBody c x) closed ts (S, y, false) = .running (after c x S ts, y', b) ∧
      closed = false ∧ (∀ r ∈ ts, accepts c x (propose c x r.z) r.u = false ∧ r.late = false)) ∨
    (closed = true ∧ whileScript (fun p => !p.2.2) Try.late (tryBody c x) closed ts (S, y, false) = .done (S, y, false)) ∨
    (closed = false ∧ ∃ rej t rest, ts = rej ++ t :: rest ∧
      (∀ r ∈ rej, accepts c x (propose c x r.z) r.u = false ∧ r.late = false) ∧
      (accepts c x (propose c x t.z) t.u = true ∨ t.late = true) ∧
      whileScript (fun p => !p.2.2) Try.late (tryBody c x) closed ts (S, y, false) =
        .done (after c x S (rej ++ [t]), propose c x t.z, accepts c x (propose c x t.z) t.u)) := by
  intro ts
  induction ts with
  | nil =>
    intro closed S y
    cases closed
    · left
      exact ⟨y, false, by simp [whileScript, after_nil], rfl, by simp⟩
    · right; left
      simp [whileScript]
  | cons t ts ih =>
    intro closed S y
    cases closed
    swap
    · right; left
      simp [whileScript]
    have hstep : whileScript (fun p => !p.2.2) Try.late (tryBody c x) false (t :: ts) (S, y, false) =
        whileScript (fun p => !p.2.2) Try.late (tryBody c x) t.late ts
          ((tryBody c x t (S, y, false)).1.1, propose c x t.z, accepts c x (propose c x t.z) t.u) := by
      rw [whileScript]
      simp [tryBody]
    by_cases ha : accepts c x (propose c x t.z) t.u = true
    · right; right
      refine ⟨rfl, [], t, ts, rfl, by simp, Or.inl ha, ?_⟩
      rw [hstep, whileScript_skip (by simp [ha])]
      rw [show ([] ++ [t] : List (Try d)) = [t] from rfl, ← after_cons c x S t [] (y, false), after_nil]
    · have ha' : accepts c x (propose c x t.z) t.u = false := by simpa using ha
      rw [ha'] at hstep
      rcases ih t.late (tryBody c x t (S, y, false)).1.1 (propose c x t.z) with
        ⟨y', b, h, h1, h2⟩ | ⟨h1, h⟩ | ⟨h1, rej, t', rest, h2, h3, h4, h⟩
      · left
        refine ⟨y', b, ?_, rfl, ?_⟩
        · rw [hstep, h, after_cons]
        · intro r hr
          rcases List.mem_cons.1 hr with rfl | hr
          · exact ⟨ha', h1⟩
          · exact h2 r hr
      · right; right
        refine ⟨rfl, [], t, ts, rfl, by simp, Or.inr h1, ?_⟩
        rw [hstep, h, ha', show ([] ++ [t] : List (Try d)) = [t] from rfl, ← after_cons c x S t [] (y, false), after_nil]
      · right; right
        refine ⟨rfl, t :: rej, t', rest, by simp [h2], ?_, h4, ?_⟩
        · intro r hr
          rcases List.mem_cons.1 hr with rfl | hr
          · exact ⟨ha', h1⟩
          · exact h3 r hr
        · rw [hstep, h, after_cons]; rfl

theorem relabel_after (c : Cfg d) (x : Fin d → ℝ) (S : MH d) (rej : List (Try d)) (t : Try d) (l : Label) :
    relabel l (after c x S (rej ++ [t])) = some (logged c x S rej t l) := by
  have h : S.trajT ++ List.replicate (rej.length + 1) Label.reject =
      (S.trajT ++ List.replicate rej.length Label.reject) ++ [Label.reject] := by
    simp [List.replicate_succ', List.append_assoc]
  unfold relabel
  rw [if_neg]
  · simp only [after, List.length_append, List.length_singleton, h, List.dropLast_concat, logged, List.map_append,
      List.map_cons, List.map_nil, ← List.append_assoc]
  · simp [after]

theorem relabel_logged (c : Cfg d) (x y : Fin d → ℝ) (S : MH d) (rej : List (Try d)) (t : Try d) (l l' : Label) :
    relabel l' { logged c x S rej t l with cur := y } = some { logged c x S rej t l' with cur := y } := by
  unfold relabel
  rw [if_neg (by simp [logged])]
  simp only [logged, List.dropLast_concat]

/-- What a call of `mcmc_step` does. -/
theorem mcmcStep_cases (c : Cfg d) (x : Fin d → ℝ) (env : StepEnv d) (S : MH d) :
    (∃ y, env.closed = false ∧ mcmcStep c x env S = .running (after c x S env.tries, y) ∧
      (∀ r ∈ env.tries, accepts c x (propose c x r.z) r.u = false ∧ r.late = false)) ∨
    (env.closed = true ∧ S.trajT = [] ∧ mcmcStep c x env S = .raised .index (S, x)) ∨
    (env.closed = true ∧ S.trajT ≠ [] ∧
      mcmcStep c x env S = .done ({ S with trajT := S.trajT.dropLast ++ [.accept] }, x)) ∨
    (env.closed = false ∧ ∃ rej t rest, env.tries = rej ++ t :: rest ∧
      (∀ r ∈ rej, accepts c x (propose c x r.z) r.u = false ∧ r.late = false) ∧
      (accepts c x (propose c x t.z) t.u = true ∨ t.late = true) ∧
      mcmcStep c x env S = .done (logged c x S rej t .accept, propose c x t.z)) := by
  unfold mcmcStep
  rcases loop_cases c x env.tries env.closed S x with ⟨y, b, h, h1, h2⟩ | ⟨h1, h⟩ | ⟨h1, rej, t, rest, h2, h3, h4, h⟩
  · left
    exact ⟨y, h1, by rw [h], h2⟩
  · right
    rw [h]
    by_cases he : S.trajT = []
    · left
      exact ⟨h1, he, by simp [relabel, he]⟩
    · right; left
      exact ⟨h1, he, by simp [relabel, he]⟩
  · right; right; right
    refine ⟨h1, rej, t, rest, h2, h3, h4, ?_⟩
    rw [h]
    simp only [relabel_after]

/-- What one advance of the chain does. -/
theorem advance_cases (c : Cfg d) (l : Label) (env : StepEnv d) (S : MH d) :
    (env.closed = false ∧ advance c l env S = .running (after c S.cur S env.tries) ∧
      (∀ r ∈ env.tries, accepts c S.cur (propose c S.cur r.z) r.u = false ∧ r.late = false)) ∨
    (env.closed = true ∧ S.trajT = [] ∧ advance c l env S = .raised .index S) ∨
    (env.closed = true ∧ S.trajT ≠ [] ∧ advance c l env S = .done { S with trajT := S.trajT.dropLast ++ [l] }) ∨
    (env.closed = false ∧ ∃ rej t rest, env.tries = rej ++ t :: rest ∧
      (∀ r ∈ rej, accepts c S.cur (propose c S.cur r.z) r.u = false ∧ r.late = false) ∧
      (accepts c S.cur (propose c S.cur t.z) t.u = true ∨ t.late = true) ∧
      advance c l env S = .done { logged c S.cur S rej t l with cur := propose c S.cur t.z }) := by
  unfold advance
  rcases mcmcStep_cases c S.cur env S with ⟨y, h1, h, h2⟩ | ⟨h1, h2, h⟩ | ⟨h1, h2, h⟩ | ⟨h1, rej, t, rest, h2, h3, h4, h⟩
  · left; exact ⟨h1, by rw [h], h2⟩
  · right; left; exact ⟨h1, h2, by rw [h]⟩
  · right; right; left
    exact ⟨h1, h2, by rw [h]; simp [relabel]⟩
  · right; right; right
    refine ⟨h1, rej, t, rest, h2, h3, h4, ?_⟩
    rw [h]
    simp only [relabel_logged]

/-! ### Invariants of runs

`I` is a property of the object and of the list of samples collected by the current call. -/

variable {c : Cfg d} {I : MH d → List (Fin d → ℝ) → Prop} {R J : MH d → Prop}

theorem mcmc_inv (n : ℕ) (env : ℕ → ℕ → StepEnv d)
    (h : ∀ i < n, ∀ S acc, I S acc → (mcmcIter c (env i) (S, acc)).Sat (fun p => I p.1 p.2) (fun p => R p.1) (fun p => J p.1))
    (S : MH d) (hS : I S []) :
    (mcmc c n env S).Sat (fun p => I p.1 p.2) (fun p => R p.1) (fun p => J p.1) :=
  forN_inv (fun _ (p : MH d × List (Fin d → ℝ)) => I p.1 p.2) _ _ n (fun i hi p hp => h i hi p.1 p.2 hp) _ hS

/-- One iteration of `mcmc`: an indexed invariant of the inner loop, then the label and the collection. -/
theorem mcmcIter_inv (I : ℕ → MH d → Prop) (env : ℕ → StepEnv d) (acc : List (Fin d → ℝ)) (D : MH d → List (Fin d → ℝ) → Prop)
    (h : ∀ j < c.nSteps, ∀ S, I j S → (advance c .decorrelation (env j) S).Sat (I (j + 1)) R J)
    (hd : ∀ S, I c.nSteps S → S.trajT ≠ [] → D { S with trajT := S.trajT.dropLast ++ [.sample] } (acc ++ [S.cur]))
    (hr : ∀ S, I c.nSteps S → S.trajT = [] → R S) (S : MH d) (hS : I 0 S) :
    (mcmcIter c env (S, acc)).Sat (fun p => D p.1 p.2) (fun p => R p.1) (fun p => J p.1) := by
  have := forN_inv I R J (f := fun j S => advance c .decorrelation (env j) S) c.nSteps h S hS
  unfold mcmcIter
  simp only
  revert this
  cases forN (fun j S => advance c .decorrelation (env j) S) c.nSteps S with
  | running S' => exact fun h => h
  | raised e S' => exact fun h => h
  | done S' =>
    intro hI
    by_cases he : S'.trajT = []
    · simp only [relabel, he, if_true]
      exact hr S' hI he
    · simp only [relabel, he, if_false]
      exact hd S' hI he

theorem burnIn_inv (I : MH d → Prop) (burn : ℕ → List (Try d))
    (h : ∀ j < c.nBurnin, ∀ S, I S → (advance c .burnIn ⟨false, burn j⟩ S).Sat I R J)
    (hd : ∀ S, I S → I { S with isInit := true }) (S : MH d) (hS : I S) : (burnIn c burn S).Sat I R J := by
  unfold burnIn
  split
  · exact hS
  · have := forN_inv (fun _ => I) R J (f := fun j S => advance c .burnIn ⟨false, burn j⟩ S) c.nBurnin h S hS
    revert this
    cases forN (fun j S => advance c .burnIn ⟨false, burn j⟩ S) c.nBurnin S with
    | running S' => exact fun h => h
    | raised e S' => exact fun h => h
    | done S' => exact hd S'

/-- `sample`, for invariants that do not depend on how the collected list is split. -/
theorem sample_inv (n : ℕ) (burn : ℕ → List (Try d)) (env : ℕ → ℕ → ℕ → StepEnv d)
    (hb : ∀ j < c.nBurnin, ∀ S, I S [] → (advance c .burnIn ⟨false, burn j⟩ S).Sat (fun S => I S []) R J)
    (hd : ∀ S, I S [] → I { S with isInit := true } [])
    (h : ∀ k < n, ∀ i < n, ∀ S pre acc, I S (pre ++ acc) →
      (mcmcIter c (env k i) (S, acc)).Sat (fun p => I p.1 (pre ++ p.2)) (fun p => R p.1) (fun p => J p.1))
    (S : MH d) (hS : I S []) :
    (sample c n burn env S).Sat (fun p => I p.1 p.2) (fun p => R p.1) (fun p => J p.1) := by
  have hB := burnIn_inv (fun S => I S []) burn hb hd S hS
  unfold sample
  revert hB
  cases burnIn c burn S with
  | running S' => exact fun h => h
  | raised e S' => exact fun h => h
  | done S' =>
    intro hI
    refine forN_inv (fun _ (p : MH d × List (Fin d → ℝ)) => I p.1 p.2) _ _ n (fun k hk p hp => ?_) _ hI
    have hm := mcmc_inv (c := c) (I := fun S acc => I S (p.2 ++ acc)) (R := R) (J := J) n (env k)
      (fun i hi S acc => h k hk i hi S p.2 acc) p.1 (by simpa using hp)
    unfold sampleIter
    revert hm
    cases mcmc c n (env k) p.1 with
    | running S' => exact fun h => h
    | raised e S' => exact fun h => h
    | done S' => exact fun h => h

end MHast
end Verif
