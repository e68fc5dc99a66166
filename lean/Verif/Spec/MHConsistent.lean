import Verif.Spec.MHLaw
import Mathlib.Probability.ProductMeasure

/-!
# Long runs of Metropolis-Hastings

A run with enough time uses, in step `j` of iteration `i`, the tries `ω i j 0`, `ω i j 1`, … until one is accepted.
-/

set_option autoImplicit false

namespace Verif
namespace MHast

open MeasureTheory

variable {d : ℕ}

/-- A sampler for a target with density `p` and proposed offsets with density `q`, with `m` steps between samples, `b` burn in
steps and `r` components of the fitted model. -/
noncomputable def runCfg (lo hi : Fin d → ℝ) (p q : (Fin d → ℝ) → ℝ) (m b r : ℕ) : Cfg d :=
  ⟨lo, hi, fun x => XF.log (.fin (p x)), fun z => XF.log (.fin (q z)), m, b, r⟩

/-- The random numbers of all the tries of a run after the burn in. -/
abbrev Tape (d : ℕ) : Type := ℕ → ℕ → ℕ → (Fin d → ℝ) × ℝ

/-- All tries are independent; each has an offset with density `q` and a uniform number. -/
noncomputable def tapeLaw (q : (Fin d → ℝ) → ℝ) : Measure (Tape d) :=
  Measure.infinitePi fun _ => Measure.infinitePi fun _ => Measure.infinitePi fun _ => tryLaw q

/-- The first `k` tries of a sequence, none of them late. -/
def seen (ξ : ℕ → (Fin d → ℝ) × ℝ) (k : ℕ) : List (Try d) := (List.range k).map fun t => ⟨(ξ t).1, (ξ t).2, false⟩

/-- Environment of one iteration in which every step may use up to `k` tries. -/
def iterOf (burn : ℕ → List (Try d)) (ω : ℕ → ℕ → (Fin d → ℝ) × ℝ) (k : ℕ) : Iter d :=
  ⟨burn, fun _ _ j => ⟨false, seen (ω j) k⟩, false⟩

/-- Environment of `n` iterations. -/
def scriptOf (burn : ℕ → List (Try d)) (ω : Tape d) (k n : ℕ) : List (Iter d) :=
  (List.range n).map fun i => iterOf burn (ω i) k

/-- The average of `f` over the samples held by the object. -/
noncomputable def average (f : (Fin d → ℝ) → ℝ) (S : MH d) : ℝ := (S.samples.map f).sum / S.samples.length

/-- With probability one, `importance_sample(target, n)` returns for every `n` at least one (given enough tries), and the
average of `f` over the returned samples converges to `L` as `n` grows. -/
def AverageTendsto (c : Cfg d) (q : (Fin d → ℝ) → ℝ) (burn : ℕ → List (Try d)) (idx : ℕ → ℕ) (S : MH d)
    (f : (Fin d → ℝ) → ℝ) (L : ℝ) : Prop :=
  ∀ᵐ ω ∂tapeLaw q,
    (∀ n, 0 < n → ∃ k, ∃ S', importanceSample c n false (scriptOf burn ω k n) idx S = .done S') ∧
    ∀ δ > 0, ∃ N, ∀ n ≥ N, ∀ k S', importanceSample c n false (scriptOf burn ω k n) idx S = .done S' →
      |average f S' - L| < δ

/-- Bounded target inside the search space, proposal density bounded below on the moves from the search space to the
points of the target and back. -/
structure Covers (lo hi : Fin d → ℝ) (p q : (Fin d → ℝ) → ℝ) (ε M : ℝ) : Prop where
  pos : 0 < ε
  bound : ∀ x, p x ≤ M
  inside : ∀ x, 0 < p x → ∀ i, lo i < x i ∧ x i < hi i
  below : ∀ x y, (∀ i, lo i ≤ x i ∧ x i ≤ hi i) → 0 < p y → ε ≤ q (y - x) ∧ ε ≤ q (x - y)

/-- The limit of the averages: the mean of `f` under the density proportional to the target times the probability that a try
is accepted. -/
noncomputable def acceptMean (lo hi : Fin d → ℝ) (p q : (Fin d → ℝ) → ℝ) (f : (Fin d → ℝ) → ℝ) : ℝ :=
  (∫ x, f x * (p x * (acceptProb (densCfg lo hi p q) q x Set.univ).toReal)) /
    ∫ x, p x * (acceptProb (densCfg lo hi p q) q x Set.univ).toReal

/-- The samples describe the target: the averages of every bounded measurable function over the samples returned by
`importance_sample` converge almost surely to its mean under the target. -/
def DescribesTarget (lo hi : Fin d → ℝ) (p q : (Fin d → ℝ) → ℝ) (m b r : ℕ) (burn : ℕ → List (Try d)) (idx : ℕ → ℕ) (S : MH d) :
    Prop :=
  ∀ f : (Fin d → ℝ) → ℝ, Measurable f → (∃ C, ∀ x, |f x| ≤ C) →
    AverageTendsto (runCfg lo hi p q m b r) q burn idx S f (∫ x, f x * p x)

end MHast
end Verif
