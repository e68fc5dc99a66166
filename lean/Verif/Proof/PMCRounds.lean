import Verif.Spec.PMCRounds
import Verif.Props.PopDensity

/-!
# Batches of M-PMC
-/

set_option linter.unusedSectionVars false
set_option autoImplicit false

namespace Verif
namespace PMC

open Matrix

variable {d N : ℕ}

/-- What a completed iteration appends. -/
theorem body_appends {k : ℕ} {t : (Fin d → XF ℝ) → XF ℝ} {it : Iter d} {S S' : PMC d N} (h : body k t it S = (S', none)) :
    ∃ new, S'.samples = S.samples ++ new ∧ S'.weights = S.weights ++ (rowsOf t S new).map Row.w := by
  unfold body at h
  simp only at h
  split at h
  · cases h
  · rename_i new _
    refine ⟨new, ?_⟩
    have hr : rowsOf t { S with numQ := S.numQ + k } new = rowsOf t S new := rfl
    rw [hr] at h
    have hk := adapt_keeps (rowsOf t S new)
      { S with numQ := S.numQ + k, numPi := S.numPi + k, numQEval := S.numQEval + k * (1 + N) }
    cases ha : adapt (rowsOf t S new)
      { S with numQ := S.numQ + k, numPi := S.numPi + k, numQEval := S.numQEval + k * (1 + N) } with
    | mk S3 e =>
      rw [ha] at h hk
      cases e with
      | some e => cases h
      | none =>
        cases h
        exact ⟨by rw [hk.1], by rw [hk.2.1]⟩

/-- A single iteration is a call for one more sample. -/
theorem rounds_reach {k : ℕ} {sigma : ℝ} {lo hi : Fin d → ℝ} {t : (Fin d → XF ℝ) → XF ℝ}
    (ht : ∀ x : Fin d → ℝ, IsLogDensity (t (up x))) {hs : List (PMC d N)} {S : PMC d N} (h : Rounds k sigma lo hi t hs S) :
    Reach k sigma lo hi S := by
  induction h with
  | reset u S h => exact .reset u S h
  | round hs S S' _ it hb ih =>
    refine .call S ih t ht (S.samples.length + 1) false [it] S' ?_
    unfold importanceSample
    unfold whileScript
    simp only [Nat.lt_succ_self, decide_true, Bool.not_false, Bool.and_self, if_true, hb]
    unfold whileScript
    split
    · exact Or.inr rfl
    · exact Or.inl rfl

/-- Calls against `t` are sequences of rounds. -/
theorem rounds_call {k : ℕ} {sigma : ℝ} {lo hi : Fin d → ℝ} {t : (Fin d → XF ℝ) → XF ℝ} {hs : List (PMC d N)} {S : PMC d N}
    (h : Rounds k sigma lo hi t hs S) (n : ℕ) (expired : Bool) (script : List (Iter d)) (S' : PMC d N)
    (he : importanceSample k t n expired script S = .done S' ∨ importanceSample k t n expired script S = .running S') :
    ∃ hs', Rounds k sigma lo hi t (hs ++ hs') S' := by
  refine whileScript_inv_ok (fun S => ∃ hs', Rounds k sigma lo hi t (hs ++ hs') S) ?_ script expired S S'
    ⟨[], by simpa using h⟩ he
  rintro it s ⟨hs', h'⟩ _ hb
  refine ⟨hs' ++ [s], ?_⟩
  rw [← List.append_assoc]
  exact .round _ _ _ h' it (Prod.ext rfl hb)

/-- The weights of a batch. -/
theorem batch_weights {t : (Fin d → XF ℝ) → XF ℝ} (ht : ∀ x : Fin d → ℝ, IsLogDensity (t (up x))) (S : PMC d N)
    (q : (Fin d → ℝ) → ℝ) (hq : ∀ x, 0 < q x) (hl : ∀ x, S.logProb (up x) = .fin (Real.log (q x))) (ys : List (Fin d → ℝ))
    (hn : XF.nan ∉ (rowsOf t S (ys.map up)).map Row.w) :
    (rowsOf t S (ys.map up)).map Row.w =
      ys.map fun y => XF.fin (densOf (t (up y)) / q y / (ys.map fun y => densOf (t (up y)) / q y).sum) := by
  have hraw : ∀ y, rawWeight t S (up y) = .fin (densOf (t (up y)) / q y) := by
    intro y
    unfold rawWeight
    rw [hl]
    exact exp_sub_log _ (ht y) _ (hq y)
  have hsum : ((ys.map up).map (rawWeight t S)).sum = .fin (ys.map fun y => densOf (t (up y)) / q y).sum := by
    rw [← XF.sum_map_fin, List.map_map, List.map_map]
    congr 1
    exact List.map_congr_left fun y _ => hraw y
  have hw : (rowsOf t S (ys.map up)).map Row.w =
      ys.map fun y => XF.fin (densOf (t (up y)) / q y) / .fin (ys.map fun y => densOf (t (up y)) / q y).sum := by
    unfold rowsOf
    rw [hsum, List.map_map, List.map_map]
    apply List.map_congr_left
    intro y _
    simp [hraw]
  rw [hw] at hn ⊢
  apply List.map_congr_left
  intro y hy
  by_cases hz : (ys.map fun y => densOf (t (up y)) / q y).sum = 0
  · exfalso
    apply hn
    rw [List.mem_map]
    refine ⟨y, hy, ?_⟩
    have h0 : densOf (t (up y)) / q y = 0 := by
      apply le_antisymm _ (div_nonneg (densOf_nonneg _) (hq y).le)
      rw [← hz]
      apply List.single_le_sum _ _ (List.mem_map.2 ⟨y, hy, rfl⟩)
      intro v hv
      obtain ⟨z, -, rfl⟩ := List.mem_map.1 hv
      exact div_nonneg (densOf_nonneg _) (hq z).le
    rw [hz, h0]
    simp [XF.fin_div, XF.infMul]
  · rw [XF.fin_div_ne _ _ hz]

end PMC
end Verif
