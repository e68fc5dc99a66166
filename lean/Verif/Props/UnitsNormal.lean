import Verif.Props.UnitsHiD
import Verif.Props.PopDensity

/-!
# C157 for the proposals of DM-AIS and layered AIS

Their proposals are normal distributions with covariance `diag(sigma, ..., sigma)`. With a common factor `t` of all axes the converted
proposal is the one with `t ^ 2 * sigma`.
-/

set_option linter.unusedSectionVars false
set_option autoImplicit false

namespace Verif
variable {d : ℕ}

/-- **C157** the hypothesis on the proposals in `C157_dm` and `C157_lais` for the proposals of the code. -/
theorem C157_proposal {t sigma : ℝ} (ht : 0 < t) (hs : 0 < sigma) (c x : Fin d → ℝ) :
    (XF.fin (AIS.proposal (t ^ 2 * sigma) ((fun _ => t) * c) ((fun _ => t) * x)) : XF ℝ) =
      XF.fin (∏ _i : Fin d, t)⁻¹ * XF.fin (AIS.proposal sigma c x) := by
  rw [AIS.proposal_eq (by positivity), AIS.proposal_eq hs, XF.fin_mul]
  congr 1
  unfold gaussDiag
  rw [← Finset.prod_inv_distrib, ← Finset.prod_mul_distrib]
  refine Finset.prod_congr rfl fun k _ => ?_
  have h1 : -((((fun _ => t) * x : Fin d → ℝ) k) - (((fun _ => t) * c : Fin d → ℝ) k)) ^ 2 / (2 * (t ^ 2 * sigma)) =
      -(x k - c k) ^ 2 / (2 * sigma) := by
    simp only [Pi.mul_apply]
    field_simp
  have h2 : Real.sqrt (2 * Real.pi * (t ^ 2 * sigma)) = t * Real.sqrt (2 * Real.pi * sigma) := by
    rw [show 2 * Real.pi * (t ^ 2 * sigma) = t ^ 2 * (2 * Real.pi * sigma) by ring, Real.sqrt_mul (sq_nonneg t), Real.sqrt_sq ht.le]
  rw [h1, h2, div_mul_eq_div_div_swap, inv_mul_eq_div]

/-- **C157** for DM-AIS with the proposals of the code: the problem in units of which `t` are one of the old ones, with the variances
`t ^ 2 * sigma` in place of `sigma`. -/
theorem C157_dm_normal {t sigma : ℝ} (ht : 0 < t) (hs : 0 < sigma) (N k : ℕ) (p : (Fin d → ℝ) → XF ℝ) (lo hi : Fin d → ℝ)
    (u : ℕ → Fin d → ℝ) (S S' : AIS ℝ d) (hS : AIS.reset N lo hi u = .ok S)
    (hS' : AIS.reset N ((fun _ => t) * lo) ((fun _ => t) * hi) u = .ok S') (calls : List (ℕ × Bool × List (DM.Iter ℝ d))) :
    session (fun a => DM.importanceSample N k (fun c x => XF.fin (AIS.proposal (t ^ 2 * sigma) c x))
          (fun x => XF.fin (∏ _i : Fin d, t)⁻¹ * p (x / fun _ => t)) a.1 a.2.1
          (a.2.2.map fun it : DM.Iter ℝ d => { it with pts := fun i j => (fun _ => t) * it.pts i j }))
        (fun S => (S.returned, S.centers, S.modelWeights, S.numPi, S.numQEval, S.numQ)) calls S' =
      session (fun a => DM.importanceSample N k (fun c x => XF.fin (AIS.proposal sigma c x)) p a.1 a.2.1 a.2.2)
        (fun S => ((S.returned.1.map ((fun _ => t) * ·), S.returned.2), S.centers.map ((fun _ => t) * ·), S.modelWeights, S.numPi, S.numQEval,
          S.numQ)) calls S :=
  C157_dm (fun _ => t) (fun _ => ht) N k _ _ (C157_proposal ht hs) p lo hi u S S' hS hS' calls

/-- **C157** for layered AIS with the proposals of the code. -/
theorem C157_lais_normal {t sigma : ℝ} (ht : 0 < t) (hs : 0 < sigma) (N k L : ℕ) (p : (Fin d → ℝ) → XF ℝ) (lo hi : Fin d → ℝ)
    (u : ℕ → Fin d → ℝ) (S S' : AIS ℝ d) (hS : AIS.reset N lo hi u = .ok S)
    (hS' : AIS.reset N ((fun _ => t) * lo) ((fun _ => t) * hi) u = .ok S') (calls : List (ℕ × Bool × List (LAIS.Iter ℝ d))) :
    session (fun a => LAIS.importanceSample N k L ((fun _ => t) * lo) ((fun _ => t) * hi)
          (fun c x => XF.fin (AIS.proposal (t ^ 2 * sigma) c x)) (fun x => XF.fin (∏ _i : Fin d, t)⁻¹ * p (x / fun _ => t)) a.1 a.2.1
          (a.2.2.map fun it : LAIS.Iter ℝ d =>
            { it with pts := fun i j => (fun _ => t) * it.pts i j, move := fun i l => (fun _ => t) * it.move i l }))
        (fun S => (S.returned, S.centers, S.modelWeights, S.numPi, S.numQEval, S.numQ)) calls S' =
      session (fun a => LAIS.importanceSample N k L lo hi (fun c x => XF.fin (AIS.proposal sigma c x)) p a.1 a.2.1 a.2.2)
        (fun S => ((S.returned.1.map ((fun _ => t) * ·), S.returned.2), S.centers.map ((fun _ => t) * ·), S.modelWeights, S.numPi, S.numQEval,
          S.numQ)) calls S :=
  C157_lais (fun _ => t) (fun _ => ht) N k L _ _ (C157_proposal ht hs) p lo hi u S S' hS hS' calls

/-- The hypotheses of the two theorems: a sampler with three proposals and its counterpart in units of a tenth. -/
example : (∃ S : AIS ℝ 2, AIS.reset 3 (fun _ => -1) (fun _ => 1) (fun k _ => (k : ℝ) / 3) = .ok S) ∧
    ∃ S : AIS ℝ 2, AIS.reset 3 ((fun _ => 10) * fun _ => -1) ((fun _ => 10) * fun _ => 1) (fun k _ => (k : ℝ) / 3) = .ok S :=
  ⟨⟨_, AIS.reset_ok 3 (by norm_num) _ _ _⟩, ⟨_, AIS.reset_ok 3 (by norm_num) _ _ _⟩⟩

/-- Why the factor is common: with factors 1 and 2 of two axes no variance makes the converted proposal one of the code. -/
theorem C157_one_width {sigma sigma' : ℝ} (hs : 0 < sigma) (hs' : 0 < sigma') :
    ¬ ∀ x : Fin 2 → ℝ, AIS.proposal sigma' (![1, 2] * 0) (![1, 2] * x) = (∏ i, (![1, 2] : Fin 2 → ℝ) i)⁻¹ * AIS.proposal sigma 0 x := by
  intro h
  have hsym : ∀ {r : ℝ}, 0 < r → ∀ a : ℝ, AIS.proposal r (0 : Fin 2 → ℝ) ![a, 0] = AIS.proposal r 0 ![0, a] := by
    intro r hr a
    simp only [AIS.proposal_eq hr, gaussDiag, Fin.prod_univ_two]
    exact mul_comm _ _
  have e1 : (![1, 2] * ![1, 0] : Fin 2 → ℝ) = ![1, 0] := by
    funext i
    fin_cases i <;> simp
  have e2 : (![1, 2] * ![0, 1] : Fin 2 → ℝ) = ![0, 2] := by
    funext i
    fin_cases i <;> simp
  have h1 := h ![1, 0]
  have h2 := h ![0, 1]
  rw [hsym hs, ← h2, e1, e2, mul_zero, hsym hs'] at h1
  simp only [AIS.proposal_eq hs', gaussDiag, Fin.prod_univ_two] at h1
  have hq : Real.sqrt (2 * Real.pi * sigma') ≠ 0 := (Real.sqrt_pos.2 (by positivity)).ne'
  have h3 := mul_left_cancel₀ (div_ne_zero (Real.exp_pos _).ne' hq) h1
  have h4 := Real.exp_injective ((div_left_inj' hq).1 h3)
  have h5 : -(1 - 0 : ℝ) ^ 2 / (2 * sigma') = -(2 - 0 : ℝ) ^ 2 / (2 * sigma') := h4
  rw [div_left_inj' (by positivity)] at h5
  norm_num at h5

end Verif
