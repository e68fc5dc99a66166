import Verif.Spec.Rejection
import Verif.Proof.Loop

/-!
# Rejection sampling: C50, C52
-/

set_option linter.unusedSectionVars false
set_option autoImplicit false

namespace Verif
namespace Rejection

variable {d : ℕ} {c : Cfg d}

/-- Samples added by the iterations of `script`. -/
def Added (c : Cfg d) (script : List (Iter d)) (new : List (Fin d → ℝ)) : Prop :=
  ∀ x ∈ new, ∃ it ∈ script, ∃ j, x = it.pts j ∧ accepts c x (it.u j) = true

theorem body_spec (n : ℕ) (it : Iter d) (S : Rej d) (hc : S.samples.length < n) :
    (body c n it S).2 = none ∧ ∃ new, (body c n it S).1.samples = S.samples ++ new ∧ S.samples.length + new.length ≤ n ∧
      (∀ x ∈ new, ∃ j, x = it.pts j ∧ accepts c x (it.u j) = true) ∧
      (body c n it S).1.weights.length = S.weights.length + new.length := by
  refine ⟨rfl, ((List.range (n - S.samples.length)).filter fun j => accepts c (it.pts j) (it.u j)).map it.pts, rfl, ?_, ?_, ?_⟩
  · have := List.length_filter_le (fun j => accepts c (it.pts j) (it.u j)) (List.range (n - S.samples.length))
    rw [List.length_range] at this
    rw [List.length_map]
    omega
  · intro x hx
    obtain ⟨j, hj, rfl⟩ := List.mem_map.1 hx
    exact ⟨j, rfl, (List.mem_filter.1 hj).2⟩
  · simp [body]

theorem loop_spec (n : ℕ) (expired : Bool) (script : List (Iter d)) (S : Rej d) :
    ∃ new, (whileScript (fun S => decide (S.samples.length < n)) Iter.late (body c n) expired script S).state.samples =
        S.samples ++ new ∧ S.samples.length + new.length ≤ max n S.samples.length ∧ Added c script new ∧
      (whileScript (fun S => decide (S.samples.length < n)) Iter.late (body c n) expired script S).state.weights.length =
        S.weights.length + new.length := by
  refine whileScript_inv_mem (fun S1 => ∃ new, S1.samples = S.samples ++ new ∧
    S.samples.length + new.length ≤ max n S.samples.length ∧ Added c script new ∧
    S1.weights.length = S.weights.length + new.length) script ?_ expired S ⟨[], by simp, by simp, by simp [Added], by simp⟩
  intro it hit S1 h1 hc
  obtain ⟨new, e1, e2, e3, e4⟩ := h1
  obtain ⟨-, more, f1, f2, f3, f4⟩ := body_spec (c := c) n it S1 (by simpa using hc)
  refine ⟨new ++ more, by rw [f1, e1, List.append_assoc], ?_, ?_, ?_⟩
  · rw [e1, List.length_append] at f2
    rw [List.length_append]
    omega
  · intro x hx
    rcases List.mem_append.1 hx with hx | hx
    · exact e3 x hx
    · obtain ⟨j, hj⟩ := f3 x hx
      exact ⟨it, hit, j, hj⟩
  · rw [f4, e4, List.length_append]; omega

theorem loop_no_raise (n : ℕ) : ∀ (script : List (Iter d)) (expired : Bool) (S S' : Rej d) (e : PyErr),
    whileScript (fun S => decide (S.samples.length < n)) Iter.late (body c n) expired script S ≠ .raised e S' := by
  intro script
  induction script with
  | nil =>
    intro expired S S' e
    unfold whileScript
    split <;> simp
  | cons it rest ih =>
    intro expired S S' e
    unfold whileScript
    split
    · simp only [body]
      exact ih _ _ _ _
    · simp

theorem importance_state (n : ℕ) (expired : Bool) (script : List (Iter d)) (idx : ℕ → ℕ) (S : Rej d) :
    (importanceSample c n expired script idx S).state.samples =
      (whileScript (fun S => decide (S.samples.length < n)) Iter.late (body c n) expired script S).state.samples ∧
    (importanceSample c n expired script idx S).state.weights.length =
      (whileScript (fun S => decide (S.samples.length < n)) Iter.late (body c n) expired script S).state.weights.length := by
  unfold importanceSample
  cases whileScript (fun S => decide (S.samples.length < n)) Iter.late (body c n) expired script S with
  | running S => exact ⟨rfl, rfl⟩
  | raised e S => exact ⟨rfl, rfl⟩
  | done S1 =>
    simp only
    cases MHast.updateModel c.nKde idx S1.samples <;> exact ⟨rfl, by simp [Out.state]⟩

theorem reach_weights {S : Rej d} (h : Reach c S) : S.weights.length = S.samples.length := by
  have key : ∀ n expired script idx (S : Rej d), S.weights.length = S.samples.length →
      (importanceSample c n expired script idx S).state.weights.length =
        (importanceSample c n expired script idx S).state.samples.length := by
    intro n expired script idx S h
    obtain ⟨new, h1, -, -, h4⟩ := loop_spec (c := c) n expired script S
    rw [(importance_state n expired script idx S).1, (importance_state n expired script idx S).2, h1, h4, h, List.length_append]
  induction h with
  | new => rfl
  | @isDone S S' n expired script idx _ he ih =>
    have := key n expired script idx S ih
    rw [he] at this
    exact this
  | @isRaised S S' n expired script idx e _ he ih =>
    have := key n expired script idx S ih
    rw [he] at this
    exact this

/-- **C50**. A call of `importance_sample(n)` keeps the earlier samples as prefix, holds at most
`max n (previous size)` samples and adds only points `x` whose ratio target / (proposal * scaling) exceeds the uniform
number drawn for them. When it returns there is at least one sample, one weight `1/size` per sample, and without timeout
exactly `max n (previous size)` samples. -/
theorem C50_rejection {S : Rej d} (hS : Reach c S) (n : ℕ) (expired : Bool) (script : List (Iter d)) (idx : ℕ → ℕ) :
    (∃ new, (importanceSample c n expired script idx S).state.samples = S.samples ++ new ∧
      S.samples.length + new.length ≤ max n S.samples.length ∧
      ∀ x ∈ new, ∃ it ∈ script, ∃ j, x = it.pts j ∧
        XF.ltb (.fin (it.u j)) (c.target x / (c.prop x * .fin c.scaling)) = true) ∧
    (∀ S', importanceSample c n expired script idx S = .done S' →
      S'.samples ≠ [] ∧
      (∃ w : List ℝ, S'.weights = w.map XF.fin ∧ w.length = S'.samples.length ∧
        (∀ a ∈ w, a = 1 / (S'.samples.length : ℝ)) ∧ w.sum = 1) ∧
      (expired = false → (∀ it ∈ script, it.late = false) → S'.samples.length = max n S.samples.length)) := by
  obtain ⟨new, h1, h2, h3, h4⟩ := loop_spec (c := c) n expired script S
  refine ⟨⟨new, by rw [(importance_state n expired script idx S).1, h1], h2, h3⟩, ?_⟩
  intro S' h
  have hlen := reach_weights (hS.isDone h)
  unfold importanceSample at h
  cases hw : whileScript (fun S => decide (S.samples.length < n)) Iter.late (body c n) expired script S with
  | running S1 => rw [hw] at h; cases h
  | raised e S1 => rw [hw] at h; cases h
  | done S1 =>
    rw [hw] at h h1
    simp only at h
    cases hu : MHast.updateModel c.nKde idx S1.samples with
    | error e => rw [hu] at h; cases h
    | ok m =>
      rw [hu] at h
      cases h
      have hne : S1.samples ≠ [] := by
        intro h0
        simp [MHast.updateModel, h0] at hu
      have hlen' : S1.weights.length = S1.samples.length := by simpa using hlen
      refine ⟨hne, ⟨List.replicate S1.weights.length (1 / (S1.weights.length : ℝ)), by simp, by simp [hlen'], ?_, ?_⟩, ?_⟩
      · intro a ha
        rw [(List.mem_replicate.1 ha).2, hlen']
      · have : (S1.weights.length : ℝ) ≠ 0 := by
          rw [hlen']
          exact_mod_cast (List.length_pos_iff.2 hne).ne'
        simp [this]
      · intro he hl
        have hc := whileScript_done hw he hl
        simp only [decide_eq_false_iff_not, not_lt] at hc
        have h1 : S1.samples = S.samples ++ new := h1
        show S1.samples.length = _
        rw [h1] at hc ⊢
        simp only [List.length_append] at hc ⊢
        omega

/-! ### C52 -/

/-- **C52**, what holds: the reported number of proposal samples is at least the number of points drawn. -/
theorem C52_partial {S : Rej d} (hS : Reach c S) : S.drawn ≤ S.numQ ∧ S.numQ = S.numPi ∧ S.numQ = S.numQEval := by
  have body_le : ∀ n (it : Iter d) (S : Rej d), (S.drawn ≤ S.numQ ∧ S.numQ = S.numPi ∧ S.numQ = S.numQEval) →
      ((body c n it S).1.drawn ≤ (body c n it S).1.numQ ∧ (body c n it S).1.numQ = (body c n it S).1.numPi ∧
        (body c n it S).1.numQ = (body c n it S).1.numQEval) := by
    intro n it S h
    simp only [body]
    omega
  have key : ∀ n expired script idx (S : Rej d), (S.drawn ≤ S.numQ ∧ S.numQ = S.numPi ∧ S.numQ = S.numQEval) →
      ((importanceSample c n expired script idx S).state.drawn ≤ (importanceSample c n expired script idx S).state.numQ ∧
       (importanceSample c n expired script idx S).state.numQ = (importanceSample c n expired script idx S).state.numPi ∧
       (importanceSample c n expired script idx S).state.numQ = (importanceSample c n expired script idx S).state.numQEval) := by
    intro n expired script idx S h
    have := whileScript_inv (cond := fun S => decide (S.samples.length < n)) (late := Iter.late) (body := body c n)
      (fun S => S.drawn ≤ S.numQ ∧ S.numQ = S.numPi ∧ S.numQ = S.numQEval) (fun it S h _ => body_le n it S h) script expired S h
    unfold importanceSample
    revert this
    cases whileScript (fun S => decide (S.samples.length < n)) Iter.late (body c n) expired script S with
    | running S => exact fun h => h
    | raised e S => exact fun h => h
    | done S1 =>
      intro h
      simp only
      cases MHast.updateModel c.nKde idx S1.samples <;> exact h
  induction hS with
  | new => simp [init]
  | @isDone S S' n expired script idx _ he ih =>
    have := key n expired script idx S ih
    rw [he] at this
    exact this
  | @isRaised S S' n expired script idx e _ he ih =>
    have := key n expired script idx S ih
    rw [he] at this
    exact this

/-- **C52**, what holds: on a new object the reports are exact as long as the first iteration accepts everything (or time
runs out after it). -/
theorem C52_first_partial (n : ℕ) (it : Iter d) (hlate : it.late = true) (idx : ℕ → ℕ) :
    (importanceSample c n false [it] idx init).state.numQ = n ∧ (importanceSample c n false [it] idx init).state.drawn = n := by
  rcases n.eq_zero_or_pos with rfl | hn
  · simp [importanceSample, whileScript, init, MHast.updateModel, Out.state]
  · have hw : whileScript (fun S => decide (S.samples.length < n)) Iter.late (body c n) false [it] init =
        .done (body c n it init).1 := by
      have h0 : (init : Rej d).samples.length < n := hn
      have h2 : (body c n it init).2 = none := rfl
      generalize hb : body c n it init = r at h2
      obtain ⟨S1, e⟩ := r
      simp only at h2
      subst h2
      simp [whileScript, h0, hb, hlate]
    have h1 : (body c n it init).1.numQ = n := by simp [body, init]
    have h2 : (body c n it init).1.drawn = n := by simp [body, init]
    simp only [importanceSample, hw]
    cases MHast.updateModel c.nKde idx (body c n it init).1.samples <;> exact ⟨h1, h2⟩

/-- Uniform proposal on the line twice as high as the target. -/
noncomputable def exCfg : Cfg 1 := ⟨fun _ => .fin 1, fun _ => .fin 1, 2, 1⟩

theorem ex_accepts (x : Fin 1 → ℝ) (u : ℝ) : accepts exCfg x u = decide (u < 1/2) := by
  simp only [accepts, ratio, exCfg, XF.fin_mul]
  rw [XF.fin_div_ne _ _ (by norm_num)]
  simp [XF.ltb]

theorem ex_run : ∃ S', importanceSample exCfg 2 false
    [⟨fun _ => ![0], fun j => if j = 0 then 0 else 3/4, false⟩, ⟨fun _ => ![1], fun _ => 0, false⟩] (fun _ => 0) init = .done S' ∧
    S'.drawn = 3 ∧ S'.samples.length = 2 ∧ S'.numQ = 4 ∧ acceptanceRate S' = .ok (1/2) := by
  have hk : exCfg.nKde = 1 := rfl
  have r2 : List.range 2 = [0, 1] := rfl
  have r1 : List.range 1 = [0] := rfl
  have h34 : ¬ ((3 : ℝ) / 4 < 2⁻¹) := by norm_num
  simp [importanceSample, whileScript, body, init, ex_accepts, MHast.updateModel, hk, r2, r1, acceptanceRate, h34]
  norm_num

/-- **C52** is violated: with two samples asked for, one accepted in the first round and one in the second, three points
were drawn, two kept, but four are reported: the acceptance rate is given as 1/2 instead of 2/3. -/
theorem C52_refuted : ∃ (c : Cfg 1) (script : List (Iter 1)) (S' : Rej 1),
    importanceSample c 2 false script (fun _ => 0) init = .done S' ∧ S'.drawn = 3 ∧ S'.samples.length = 2 ∧ S'.numQ = 4 ∧
    acceptanceRate S' = .ok (1/2) := by
  obtain ⟨S', h⟩ := ex_run
  exact ⟨exCfg, _, S', h⟩

/-- `C50_rejection` at an object that holds samples. -/
example : ∃ S : Rej 1, Reach exCfg S ∧ S.samples.length = 2 := by
  obtain ⟨S', h, -, h2, -⟩ := ex_run
  exact ⟨S', Reach.new.isDone h, h2⟩

end Rejection
end Verif
