import Verif.Proof.AISRound

/-!
Specification for runs of the population samplers driven by random numbers: how the records the sampling loop consumes are
made from the numbers drawn, and what the weighted mean of a returned sample is.
-/

set_option autoImplicit false

namespace Verif

open MeasureTheory AISRound

variable {d : ℕ}

/-- The estimate of the expectation of `f` a user computes from what `importance_sample` returns. -/
noncomputable def meanOver (f : (Fin d → ℝ) → ℝ) (r : List (Fin d → ℝ) × List (XF ℝ)) : XF ℝ :=
  (List.zipWith (fun x w => XF.fin (f x) * w) r.1 r.2).sum

/-- The importance weights have bounded variance for proposals centred in `R`, also when multiplied with `g`. -/
def FiniteVariance (F : Family d) (R : Set (Fin d → ℝ)) (t g : (Fin d → ℝ) → ℝ) : Prop :=
  ∃ M : ℝ, ∀ c ∈ R, Integrable (fun x => (g x * t x) ^ 2 / F.dens c x) ∧ ∫ x, (g x * t x) ^ 2 / F.dens c x ≤ M

/-- Points of a round: the j-th point of the i-th proposal is drawn from the proposal as it is at that moment, with its own
standard normal numbers. -/
noncomputable def roundPts {N k : ℕ} (F : Family d) (S : AIS ℝ d) (z : Fin N × Fin k → Fin d → ℝ) : ℕ → ℕ → Fin d → ℝ :=
  famPts fun p => F.draw (S.centers.getD p.1 0) (z p)

namespace LAIS

/-- Random numbers of a round of layered AIS: standard normal numbers for the points, and the moves and uniform numbers of
the Metropolis steps. -/
abbrev Noise (N k d : ℕ) : Type :=
  (Fin N × Fin k → Fin d → ℝ) × (ℕ → ℕ → Fin d → ℝ) × (ℕ → ℕ → ℝ)

/-- Law of the random numbers of a round: the points use independent standard normal numbers, the numbers of the Metropolis
steps have any law. -/
noncomputable def noiseLaw (N k : ℕ) (Q : Measure ((ℕ → ℕ → Fin d → ℝ) × (ℕ → ℕ → ℝ))) : Measure (Noise N k d) :=
  (Measure.pi fun _ : Fin N × Fin k => stdNormal d).prod Q

/-- The record of a round started in state `S`. -/
noncomputable def record {N k : ℕ} (F : Family d) (S : AIS ℝ d) (ξ : Noise N k d) : Iter ℝ d :=
  ⟨roundPts F S ξ.1, ξ.2.1, ξ.2.2, false⟩

/-- The records of `m` rounds, the first of which uses the random numbers `ω r`. -/
noncomputable def script {N k : ℕ} (L : ℕ) (lo hi : Fin d → ℝ) (F : Family d) (t : (Fin d → ℝ) → ℝ) (ω : ℕ → Noise N k d) :
    ℕ → ℕ → AIS ℝ d → List (Iter ℝ d)
  | 0, _, _ => []
  | m + 1, r, S => record F S (ω r) :: script L lo hi F t ω m (r + 1)
      (body N k L lo hi (fun c x => .fin (F.dens c x)) (fun x => .fin (t x)) (record F S (ω r)) S).1

end LAIS

namespace DM

/-- The record of a round of DM-AIS started in state `S`: standard normal numbers for the points, and whatever the outcomes
of the multinomial draws are made from. -/
noncomputable def record {N k : ℕ} {A : Type*} (F : Family d) (bern : A → ℕ → ℕ → ℝ → Bool) (S : AIS ℝ d)
    (ξ : (Fin N × Fin k → Fin d → ℝ) × A) : Iter ℝ d :=
  ⟨roundPts F S ξ.1, bern ξ.2, false⟩

/-- The records of `m` rounds, the first of which uses the random numbers `ω r`. -/
noncomputable def script {N k : ℕ} {A : Type*} (F : Family d) (bern : A → ℕ → ℕ → ℝ → Bool) (t : (Fin d → ℝ) → ℝ)
    (ω : ℕ → (Fin N × Fin k → Fin d → ℝ) × A) : ℕ → ℕ → AIS ℝ d → List (Iter ℝ d)
  | 0, _, _ => []
  | m + 1, r, S => record F bern S (ω r) :: script F bern t ω m (r + 1)
      (body N k (fun c x => .fin (F.dens c x)) (fun x => .fin (t x)) (record F bern S (ω r)) S).1

end DM
end Verif
