import Verif.Model.Densities

/-!
# The support a distribution reports

`distributions/distributions.py:24-28, 228-234` and the constructors of the shipped distributions. `support()` returns the
two rows stored by the constructor.
-/

set_option linter.unusedSectionVars false
set_option autoImplicit false

namespace Verif

variable {d : ℕ}

/-- A distribution object together with `support_vals` (distributions.py:96, 228-234): `support()` is the pair `(lo, hi)`. -/
structure Supported (δ : Type*) (d : ℕ) where
  dist : δ
  lo : Fin d → ℝ
  hi : Fin d → ℝ

/-! ### CMultivariateNormal.py -/

/-- The entries of the parameter dictionary of a normal distribution that its constructor reads. -/
structure NormalParams (d : ℕ) where
  mean : Fin d → ℝ
  sigma : Matrix (Fin d) (Fin d) ℝ
  support : Option ((Fin d → ℝ) × (Fin d → ℝ))

/-- CMultivariateNormal.py:37-40: without an entry `support` the dictionary receives `mean -+ 6 * sqrt(diag(sigma))`.
(`np.sqrt` of a negative diagonal entry is nan; here it is 0. Covariances have no such entry.) -/
noncomputable def NormalParams.withSupport (p : NormalParams d) : NormalParams d :=
  match p.support with
  | some _ => p
  | none => { p with support := some (fun i => p.mean i - Real.sqrt (p.sigma i i) * 6,
                                      fun i => p.mean i + Real.sqrt (p.sigma i i) * 6) }

/-- CMultivariateNormal.py:26-50 constructor: the object or the exception, and the dictionary of the caller afterwards. -/
noncomputable def NormalParams.build (p : NormalParams d) : Except PyErr (Supported (Normal d) d) × NormalParams d :=
  let p := p.withSupport
  let box := p.support.getD (p.mean, p.mean)
  ((Normal.mk' p.mean p.sigma).map fun N => ⟨N, box.1, box.2⟩, p)

/-- CMultivariateNormal.py:52-62 `set_moments` on the whole object: the support is not touched. -/
noncomputable def Supported.setMoments (S : Supported (Normal d) d) (mean : Fin d → ℝ) (cov : Matrix (Fin d) (Fin d) ℝ) :
    Supported (Normal d) d × Option PyErr :=
  let r := S.dist.setMoments mean cov
  ({ S with dist := r.1 }, r.2)

/-! ### CMultivariateExponential.py -/

/-- CMultivariateExponential.py:15-21 constructor without an entry `support`: the box `[0, 4 * mean]`. -/
noncomputable def Exponential.build (mean : Fin d → ℝ) : Supported (Exponential d) d :=
  ⟨Exponential.mk' mean, fun _ => 0, fun i => 4 * mean i⟩

/-! ### CMultivariateUniform.py -/

/-- CMultivariateUniform.py:6-30 constructor: the support is always `[center - radius, center + radius]` (line 15). -/
noncomputable def Uniform.build (center : Fin d → ℝ) (radius : List ℝ) : Except PyErr (Supported (Uniform ℝ d) d) :=
  (Uniform.mk' center radius).map fun U => ⟨U, fun i => center i - U.scale i, fun i => center i + U.scale i⟩

/-! ### benchden and rare -/

/-- d03_maxwell.py:26 `support = [0, 4]`. -/
def Maxwell.support : (Fin 1 → ℝ) × (Fin 1 → ℝ) := (fun _ => 0, fun _ => 4)

/-- d04_laplace.py:26 `support = [-6, 6]`. -/
def Laplace.support : (Fin 1 → ℝ) × (Fin 1 → ℝ) := (fun _ => -6, fun _ => 6)

/-- d10_symmetric_pareto.py:26 `support = [-20, 20]`. -/
def Pareto.support : (Fin 1 → ℝ) × (Fin 1 → ℝ) := (fun _ => -20, fun _ => 20)

/-- banana2d.py:24 `support = [[-10, -10], [10, 10]]`. -/
def Banana.support : (Fin 2 → ℝ) × (Fin 2 → ℝ) := (fun _ => -10, fun _ => 10)

end Verif
