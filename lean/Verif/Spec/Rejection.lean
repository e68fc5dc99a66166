import Verif.Model.Rejection
import Mathlib.MeasureTheory.Constructions.Pi
import Mathlib.MeasureTheory.Measure.Lebesgue.Basic
import Mathlib.MeasureTheory.Measure.WithDensity

/-!
# Vocabulary of the rejection sampling properties
-/

set_option autoImplicit false

namespace Verif
namespace Rejection

open MeasureTheory

variable {d : ℕ}

/-- The objects a program can hold: new or reset, or left by a call that returned or raised. -/
inductive Reach (c : Cfg d) : Rej d → Prop
  | new : Reach c init
  | isDone {S S' : Rej d} {n : ℕ} {expired : Bool} {script : List (Iter d)} {idx : ℕ → ℕ} :
      Reach c S → importanceSample c n expired script idx S = .done S' → Reach c S'
  | isRaised {S S' : Rej d} {n : ℕ} {expired : Bool} {script : List (Iter d)} {idx : ℕ → ℕ} {e : PyErr} :
      Reach c S → importanceSample c n expired script idx S = .raised e S' → Reach c S'

/-- A sampler for a target with (not necessarily normalised) density `t` and a proposal with density `q`. -/
noncomputable def densCfg (t q : (Fin d → ℝ) → ℝ) (scaling : ℝ) (nKde : ℕ) : Cfg d :=
  ⟨fun x => .fin (t x), fun x => .fin (q x), scaling, nKde⟩

/-- Law of a proposed point together with its uniform number. -/
noncomputable def pairLaw (q : (Fin d → ℝ) → ℝ) : Measure ((Fin d → ℝ) × ℝ) :=
  (volume.withDensity fun z => ENNReal.ofReal (q z)).prod (volume.restrict (Set.Ico 0 1))

/-- The random outcomes of `T` iterations: each has `n` independent points with their uniform numbers at its disposal
(`importance_sample(n)` never asks for more in one iteration), and there is always time left. -/
def scriptOf {T n : ℕ} (ω : Fin T → Fin n → (Fin d → ℝ) × ℝ) : List (Iter d) :=
  List.ofFn fun i => ⟨fun j => if h : j < n then (ω i ⟨j, h⟩).1 else 0, fun j => if h : j < n then (ω i ⟨j, h⟩).2 else 0, false⟩

/-- The probability that `importance_sample(n)` on the object `S`, with unlimited time, returns the samples of `S`
followed by one point of each of the sets `Bs`, in this order: limit over the number of iterations `T`. -/
noncomputable def returnProb (c : Cfg d) (q : (Fin d → ℝ) → ℝ) (n : ℕ) (idx : ℕ → ℕ) (S : Rej d)
    (Bs : List (Set (Fin d → ℝ))) : ENNReal :=
  ⨆ T : ℕ, Measure.pi (fun _ : Fin T => Measure.pi fun _ : Fin n => pairLaw q)
    {ω | ∃ S' new, importanceSample c n false (scriptOf ω) idx S = .done S' ∧ S'.samples = S.samples ++ new ∧
      List.Forall₂ (fun y B => y ∈ B) new Bs}

/-- The samples of every call on every object are independent and distributed like the normalised target. -/
def FollowsTarget (t q : (Fin d → ℝ) → ℝ) (s : ℝ) (k : ℕ) : Prop :=
  ∀ (n : ℕ) (idx : ℕ → ℕ) (S : Rej d) (Bs : List (Set (Fin d → ℝ))), 0 < n → (∀ B ∈ Bs, MeasurableSet B) →
    Bs.length + S.samples.length = n →
    returnProb (densCfg t q s k) q n idx S Bs =
      (Bs.map fun B => (∫⁻ x in B, ENNReal.ofReal (t x)) / ∫⁻ x, ENNReal.ofReal (t x)).prod

/-- Measurable density of a probability distribution. -/
structure IsDensity (p : (Fin d → ℝ) → ℝ) : Prop where
  meas : Measurable p
  nonneg : ∀ x, 0 ≤ p x
  total : ∫⁻ x, ENNReal.ofReal (p x) = 1

end Rejection
end Verif
