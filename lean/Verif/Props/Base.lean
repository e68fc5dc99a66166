import Verif.Model.Base
import Verif.Spec.Basic
import Mathlib.Tactic.NormNum
import Mathlib.Tactic.Linarith
import Mathlib.Algebra.Order.Ring.Abs

/-!
# Properties C97 and C99: evaluation functions of the base class, and the delta distribution
-/

set_option linter.unusedSectionVars false
set_option autoImplicit false

namespace Verif

/-! ### C97 -/

namespace BaseDist
variable {d : ℕ}

/-- A batch function. -/
abbrev Fn (d : ℕ) := List (Fin d → ℝ) → List (XF ℝ)

/-- A call of one of the two setters. -/
inductive Call (d : ℕ) where
  | likelihood (f : Option (Fn d))
  | loglikelihood (f : Option (Fn d))

/-- The effect of a call. -/
def Call.run (B : BaseDist d) : Call d → BaseDist d
  | .likelihood f => B.setLik f
  | .loglikelihood f => B.setLoglik f

/-- The argument of the last `set_likelihood_f` call, `f0` if there is none. -/
def lastLik (f0 : Option (Fn d)) : List (Call d) → Option (Fn d)
  | [] => f0
  | .likelihood f :: cs => lastLik f cs
  | .loglikelihood _ :: cs => lastLik f0 cs

/-- The argument of the last `set_loglikelihood_f` call, `f0` if there is none. -/
def lastLoglik (f0 : Option (Fn d)) : List (Call d) → Option (Fn d)
  | [] => f0
  | .likelihood _ :: cs => lastLoglik f0 cs
  | .loglikelihood f :: cs => lastLoglik f cs

/-- On every array of points `prob` returns `f` and `log_prob` its logarithm. -/
def Evaluates (B : BaseDist d) (f : Fn d) : Prop :=
  ∀ rs, B.prob (.mat d rs) = .ok (f rs) ∧ B.logProb (.mat d rs) = .ok ((f rs).map XF.log)

theorem run_eq (cs : List (Call d)) : ∀ B : BaseDist d,
    cs.foldl Call.run B = ⟨lastLik B.lik cs, lastLoglik B.loglik cs⟩ := by
  induction cs with
  | nil => intro B; rfl
  | cons c cs ih =>
    intro B
    rw [List.foldl_cons, ih]
    cases c <;> rfl

/-- **C97**, negation: a distribution of density 1 that is given the density 2 reports the logarithm of 1. -/
theorem C97_refuted : ∃ (B : BaseDist 1) (f : Fn 1), B.Evaluates (fun rs => rs.map fun _ => .fin 1) ∧
    (B.setLik (some f)).prob (.mat 1 [![0]]) = .ok [.fin 2] ∧
    (B.setLik (some f)).logProb (.mat 1 [![0]]) = .ok [.fin 0] ∧ ¬ (B.setLik (some f)).Evaluates f := by
  refine ⟨⟨some fun rs => rs.map fun _ => .fin 1, some fun rs => rs.map fun _ => .fin 0⟩, fun rs => rs.map fun _ => .fin 2,
    ?_, rfl, rfl, ?_⟩
  · intro rs
    refine ⟨rfl, ?_⟩
    show Except.ok _ = Except.ok _
    congr 1
    rw [List.map_map]
    refine List.map_congr_left fun x _ => ?_
    simp [XF.log]
  · intro h
    have := (h [![0]]).2
    have e := Except.ok.inj this
    simp only [XF.log, List.map_cons, List.map_nil, List.cons.injEq, and_true] at e
    rw [if_neg (by norm_num), if_neg (by norm_num)] at e
    exact (Real.log_pos one_lt_two).ne (XF.fin.inj e)

/-- **C97**, what holds: after any sequence of setter calls `prob` is the last likelihood given and `log_prob` the last log
likelihood given, when these are not `None`; if one of them is `None` the two functions agree; if both are given they agree
exactly if the log likelihood is the logarithm of the likelihood. Missing from the full claim: that setting one function
changes what the other one reports (`C97_refuted`). -/
theorem C97_partial (B : BaseDist d) (cs : List (Call d)) :
    (∀ f, lastLik B.lik cs = some f → lastLoglik B.loglik cs = none → (cs.foldl Call.run B).Evaluates f) ∧
    (∀ g, lastLik B.lik cs = none → lastLoglik B.loglik cs = some g → (∀ rs, ∀ v ∈ g rs, IsLogDensity v) →
      (cs.foldl Call.run B).Evaluates fun rs => (g rs).map fun v => .fin (densOf v)) ∧
    (∀ f g, lastLik B.lik cs = some f → lastLoglik B.loglik cs = some g →
      ((cs.foldl Call.run B).Evaluates f ↔ ∀ rs, g rs = (f rs).map XF.log)) ∧
    (lastLik B.lik cs = none → lastLoglik B.loglik cs = none → ∀ x v,
      (cs.foldl Call.run B).prob x ≠ .ok v ∧ (cs.foldl Call.run B).logProb x ≠ .ok v) := by
  rw [run_eq]
  refine ⟨?_, ?_, ?_, ?_⟩
  · intro f h1 h2 rs
    rw [h1, h2]
    simp [prob, logProb, rows]
  · intro g h1 h2 hg rs
    rw [h1, h2]
    have e1 : (g rs).map XF.exp = (g rs).map fun v => .fin (densOf v) := by
      refine List.map_congr_left fun v hv => ?_
      rcases hg rs v hv with h | ⟨a, h⟩ <;> rw [h] <;> rfl
    have e2 : ((g rs).map fun v => XF.fin (densOf v)).map XF.log = g rs := by
      rw [List.map_map]
      conv_rhs => rw [← List.map_id (g rs)]
      refine List.map_congr_left fun v hv => ?_
      rcases hg rs v hv with h | ⟨a, h⟩ <;> rw [h]
      · simp [densOf, XF.log]
      · have := Real.exp_pos a
        simp [densOf, XF.log, not_lt.2 this.le]
    simp only [prob, logProb, rows, e1, e2, dite_true, and_self]
  · intro f g h1 h2
    rw [h1, h2]
    constructor
    · intro h rs
      have := (h rs).2
      simpa [logProb, rows] using this
    · intro h rs
      simp [prob, logProb, rows, h]
  · intro h1 h2 x v
    rw [h1, h2]
    unfold prob logProb
    cases rows d x <;> simp

/-- **C97**, part: whatever the setters were given, an argument that is not an array of points (rank two with one column per
dimension) is an AssertionError of both functions and the functions of the user are not called. -/
theorem C97_shape (B : BaseDist d) (cs : List (Call d)) (x : NArr ℝ) (hx : ∀ rs : List (Fin d → ℝ), x ≠ .mat d rs) :
    (cs.foldl Call.run B).prob x = .error .assertion ∧ (cs.foldl Call.run B).logProb x = .error .assertion := by
  have h : rows d x = .error .assertion := by
    cases x with
    | vec xs => rfl
    | mat m rs =>
      have hm : m ≠ d := by
        rintro rfl
        exact hx rs rfl
      simp [rows, hm]
    | other => rfl
  unfold prob logProb
  rw [h]
  exact ⟨rfl, rfl⟩

/-- A case that meets the hypothesis: a vector. -/
example (B : BaseDist 2) : B.prob (.vec [0, 1]) = .error .assertion := (C97_shape B [] _ (by intro rs h; cases h)).1

/-- A case that meets the hypotheses: the log likelihood is withdrawn before the likelihood is set. -/
example : (([.loglikelihood none, .likelihood (some fun rs => rs.map fun x => .fin (x 0))] : List (Call 1)).foldl Call.run
    ⟨some fun _ => [], some fun _ => []⟩).Evaluates fun rs => rs.map fun x => .fin (x 0) :=
  (C97_partial _ _).1 _ rfl rfl

end BaseDist

/-! ### C99 -/

namespace Delta
variable {K : Type*} [Field K] [LinearOrder K] [IsStrictOrderedRing K] {d : ℕ}

/-- **C99**, negation: for the delta distribution at 1 the density is infinite at another point too, and the integral over
`[0, 2]` raises. -/
theorem C99_refuted : ∃ D : Delta ℚ 1, D.loc = ![1] ∧
    (∃ x : Fin 1 → ℚ, x ≠ D.loc ∧ D.prob (.mat 1 [x]) = .ok [.pinf] ∧ D.logProb (.mat 1 [x]) = .ok [.pinf]) ∧
    D.integral ![0] ![2] = .error .name :=
  ⟨⟨![1]⟩, rfl, ⟨![1 + 1 / 10 ^ 6], by
      intro h
      have := congrFun h 0
      norm_num at this, by decide +kernel, by decide +kernel⟩, by decide +kernel⟩

/-- **C99**, what holds: samples are copies of the centre; the density is infinite at the centre, 0 at every point with a
coordinate off by more than the tolerance, and one of the two everywhere; `log_prob` is infinite where the density is and
`-inf` where it is 0. Missing from the full claim: points within the tolerance, and `integral`, which raises for every
box. -/
theorem C99_partial (D : Delta K d) :
    (∀ n, (D.sample n).length = n ∧ ∀ x ∈ D.sample n, x = D.loc) ∧
    (∀ rs : List (Fin d → K), rs ≠ [] → ∃ inside : (Fin d → K) → Bool,
      D.prob (.mat d rs) = .ok (rs.map fun x => if inside x then .pinf else .fin 0) ∧
      D.logProb (.mat d rs) = .ok (rs.map fun x => if inside x then .pinf else .ninf) ∧
      inside D.loc = true ∧
      ∀ x i, 1 / 10 ^ 8 + 1 / 10 ^ 5 * |x i| < |x i - D.loc i| → inside x = false) ∧
    (∀ a b, ∃ e, D.integral a b = .error e) := by
  refine ⟨fun n => ⟨by simp [sample], fun x hx => (List.mem_replicate.1 hx).2⟩, ?_, ?_⟩
  · intro rs hne
    have hc : checkShape d (.mat d rs) = .ok rs := by
      cases rs with
      | nil => exact absurd rfl hne
      | cons r rs => simp [checkShape]
    have key : ∀ v : XF K, List.zipWith (fun v r => if D.inlier r then XF.pinf else v) (List.replicate rs.length v) rs =
        rs.map fun x => if D.inlier x then XF.pinf else v := by
      intro v
      clear hc hne
      induction rs with
      | nil => rfl
      | cons r rs ih => simp [List.replicate_succ, ih]
    refine ⟨D.inlier, ?_, ?_, ?_, ?_⟩
    · unfold prob
      rw [hc]
      exact congrArg _ (key _)
    · unfold logProb
      rw [hc]
      exact congrArg _ (key _)
    · unfold inlier
      rw [List.all_eq_true]
      intro i _
      unfold isclose
      rw [decide_eq_true_eq, sub_self, abs_zero]
      positivity
    · intro x i h
      unfold inlier
      rw [List.all_eq_false]
      refine ⟨i, List.mem_finRange i, ?_⟩
      unfold isclose
      rw [decide_eq_true_eq, abs_sub_comm, not_le]
      exact h
  · intro a b
    unfold integral
    split
    · exact ⟨_, rfl⟩
    · exact ⟨_, rfl⟩

/-- A point off the centre by more than the tolerance. -/
example : (1 / 10 ^ 8 + 1 / 10 ^ 5 * |(![3, 1] : Fin 2 → ℚ) 0|) < |(![3, 1] : Fin 2 → ℚ) 0 - (![2, 1] : Fin 2 → ℚ) 0| := by
  norm_num [abs_of_pos]

end Delta
end Verif
