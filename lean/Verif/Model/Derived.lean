import Verif.Model.Uniform
import Verif.Model.XF

/-!
# `distributions/derived/`: ABC posterior, noisy function, nuisance generator

Random draws come from a world `W` that the sampling functions of the parts thread through. Batches are lists of rows.
-/

set_option linter.unusedSectionVars false
set_option autoImplicit false

namespace Verif
namespace Derived

/-! ### ABC -/

/-- The parts an ABC distribution is made of (CABCDistribution.py:30-49): generative model `G`, sensor model `E`, latent
values `Z`, observations are vectors. `genSample none` is `sample()` and `genSample (some n)` is `sample(n)`. The
likelihood functions (with the slack applied) and the prior are evaluated row by row, which the constructor's
documentation requires of batch functions. -/
structure Parts (G E Z W : Type*) where
  genCondition : List Z → G → G
  genSample : Option ℕ → G → W → Except PyErr (List (List ℝ)) × G × W
  sensorCondition : List (List ℝ) → E → E
  sensorSample : ℕ → E → W → Except PyErr (List (List ℝ)) × E × W
  priorLogProb : Z → XF ℝ
  priorSample : ℕ → W → List Z × W
  lik : Option (List ℝ → List ℝ → XF ℝ)
  loglik : Option (List ℝ → List ℝ → XF ℝ)

/-- State of the object and of the world. -/
structure Abc (G E W : Type*) where
  gen : G
  sensor : E
  o : Option (List ℝ)
  world : W

namespace Abc
variable {G E Z W : Type*}

/-- CABCDistribution.py:51-52 `condition`. -/
def condition (s : Abc G E W) (o : List ℝ) : Abc G E W := ⟨s.gen, s.sensor, some o, s.world⟩

/-- CABCDistribution.py:54-57 `generate`. -/
def generate (P : Parts G E Z W) (s : Abc G E W) (z : List Z) : Except PyErr (List (List ℝ)) × Abc G E W :=
  match P.genSample none (P.genCondition z s.gen) s.world with
  | (r, g, w) => (r, ⟨g, s.sensor, s.o, w⟩)

/-- CABCDistribution.py:64-85 `log_prob`. The plain `Exception` raised without any likelihood is `runtime`. -/
noncomputable def logProb (P : Parts G E Z W) (s : Abc G E W) (z : List Z) : Except PyErr (List (XF ℝ)) × Abc G E W :=
  match s.o with
  | none => (.error .value, s)
  | some o =>
    match generate P s z with
    | (.error e, s') => (.error e, s')
    | (.ok rows, s') =>
      let oHat := rows.map (List.take o.length)
      let prior := z.map P.priorLogProb
      match P.loglik, P.lik with
      | some f, _ => (.ok (List.zipWith (fun y p => f o y + p + 0) oHat prior), s')
      | none, some f => (.ok (List.zipWith (fun y p => XF.log (f o y) + p + 0) oHat prior), s')
      | none, none => (.error .runtime, s')

/-- CABCDistribution.py:87-106 `prob`. -/
noncomputable def prob (P : Parts G E Z W) (s : Abc G E W) (z : List Z) : Except PyErr (List (XF ℝ)) × Abc G E W :=
  match s.o with
  | none => (.error .value, s)
  | some o =>
    match generate P s z with
    | (.error e, s') => (.error e, s')
    | (.ok rows, s') =>
      let oHat := rows.map (List.take o.length)
      let prior := z.map P.priorLogProb
      match P.loglik, P.lik with
      | some f, _ => (.ok (List.zipWith (fun y p => XF.exp (f o y + p + 0)) oHat prior), s')
      | none, some f => (.ok (List.zipWith (fun y p => f o y * XF.exp (p + 0)) oHat prior), s')
      | none, none => (.error .runtime, s')

/-- CABCDistribution.py:108-117 `sample`. -/
def sample (P : Parts G E Z W) (s : Abc G E W) (n : ℕ) : Except PyErr (List (List ℝ)) × Abc G E W :=
  match P.priorSample n s.world with
  | (z, w1) =>
    match P.genSample (some n) (P.genCondition z s.gen) w1 with
    | (.error e, g, w2) => (.error e, ⟨g, s.sensor, s.o, w2⟩)
    | (.ok x, g, w2) =>
      match P.sensorSample n (P.sensorCondition x s.sensor) w2 with
      | (r, e, w3) => (r, ⟨g, e, s.o, w3⟩)

/-- A call. -/
inductive Call (Z : Type*) where
  | condition (o : List ℝ)
  | prob (z : List Z)
  | logProb (z : List Z)
  | sample (n : ℕ)

/-- State after a call, whether it returned or raised. -/
noncomputable def after (P : Parts G E Z W) (s : Abc G E W) : Call Z → Abc G E W
  | .condition o => s.condition o
  | .prob z => (prob P s z).2
  | .logProb z => (logProb P s z).2
  | .sample n => (sample P s n).2

end Abc

/-! ### Noisy function -/

/-- The parts of a noisy function (CGenericNoisyFunction.py:17-18): the function of the conditioning rows and of the
parameters, and the noise model. -/
structure NoisyParts (d : ℕ) (P W : Type*) where
  function : List (Fin d → ℝ) → P → List (Fin d → ℝ)
  noiseSample : ℕ → W → List (Fin d → ℝ) × W
  noiseLogProb : (Fin d → ℝ) → XF ℝ
  noiseProb : (Fin d → ℝ) → XF ℝ

/-- State: the conditioning value `self.x` and the parameters `self.z` (CGenericNoisyFunction.py:22-23). -/
structure Noisy (d : ℕ) (P : Type*) where
  x : Option (List (Fin d → ℝ))
  z : P

/-- numpy `a - b` of two arrays of rows with broadcasting of single rows. -/
def subRows {d : ℕ} (a b : List (Fin d → ℝ)) : Except PyErr (List (Fin d → ℝ)) :=
  if a.length = b.length then .ok (List.zipWith (· - ·) a b)
  else match a, b with
    | a, [y] => .ok (a.map (· - y))
    | [x], b => .ok (b.map (x - ·))
    | _, _ => .error .value

/-- numpy `a + b` of two arrays of rows with broadcasting of single rows. -/
def addRows {d : ℕ} (a b : List (Fin d → ℝ)) : Except PyErr (List (Fin d → ℝ)) :=
  if a.length = b.length then .ok (List.zipWith (· + ·) a b)
  else match a, b with
    | a, [y] => .ok (a.map (· + y))
    | [x], b => .ok (b.map (x + ·))
    | _, _ => .error .value

namespace Noisy
variable {d : ℕ} {P W : Type*}

/-- CGenericNoisyFunction.py:72-73 `condition`. -/
def condition (s : Noisy d P) (x : List (Fin d → ℝ)) : Noisy d P := ⟨some x, s.z⟩

/-- CGenericNoisyFunction.py:69-70 `set_params`. -/
def setParams (s : Noisy d P) (z : P) : Noisy d P := ⟨s.x, z⟩

/-- CGenericNoisyFunction.py:25-28 `sample`: `len(None)` is a TypeError. -/
def sample (N : NoisyParts d P W) (s : Noisy d P) (w : W) : Except PyErr (List (Fin d → ℝ)) × W :=
  match s.x with
  | none => (.error .type, w)
  | some x =>
    match N.noiseSample x.length w with
    | (noise, w') =>
      let fx := N.function x s.z
      if fx.length = x.length then (addRows fx noise, w') else (.error .value, w')

/-- CGenericNoisyFunction.py:30-33 `log_prob`. -/
def logProb (N : NoisyParts d P W) (s : Noisy d P) (y : List (Fin d → ℝ)) : Except PyErr (List (XF ℝ)) :=
  match s.x with
  | none => .error .value
  | some x => (subRows y x).map fun l => l.map N.noiseLogProb

/-- CGenericNoisyFunction.py:35-39 `prob`. -/
def prob (N : NoisyParts d P W) (s : Noisy d P) (y : List (Fin d → ℝ)) : Except PyErr (List (XF ℝ)) :=
  match s.x with
  | none => .error .value
  | some x => (subRows y x).map fun l => l.map N.noiseProb

/-- A call (those that change the object). -/
inductive Call (d : ℕ) (P : Type*) where
  | condition (x : List (Fin d → ℝ))
  | setParams (z : P)
  | prob
  | logProb
  | sample

/-- State after a call. -/
def after (s : Noisy d P) : Call d P → Noisy d P
  | .condition x => s.condition x
  | .setParams z => s.setParams z
  | _ => s

end Noisy

/-! ### Nuisance generator -/

/-- State: the conditioning value `self.z` (GenericNuisanceGenModel.py:20). -/
structure Nuisance (d : ℕ) where
  z : Option (List (Fin d → ℝ))

namespace Nuisance
variable {d : ℕ} {N W : Type*}

/-- GenericNuisanceGenModel.py:37-39 `condition`. -/
def condition (s : Nuisance d) (z : NArr ℝ) : Except PyErr Unit × Nuisance d :=
  match checkShape d z with
  | .error e => (.error e, s)
  | .ok rows => (.ok (), ⟨some rows⟩)

/-- GenericNuisanceGenModel.py:27-35 `sample`; `nDist` draws nuisance values, `genF` is the generating function with the
final `.detach()`. -/
def sample {R : Type*} (nDist : ℕ → W → List N × W) (genF : List (Fin d → ℝ) → List N → Except PyErr R)
    (s : Nuisance d) (nsamples : ℕ) (w : W) : Except PyErr R × W :=
  match s.z with
  | none => (.error .value, w)
  | some rows =>
    match checkShape d (.mat d rows : NArr ℝ) with
    | .error e => (.error e, w)
    | .ok z =>
      match nDist (z.length * nsamples) w with
      | (n, w') => (genF z n, w')

/-- `prob` is inherited (distributions.py:251-266) with the constant likelihood of GenericNuisanceGenModel.py:13. -/
def prob (_s : Nuisance d) (x : NArr ℝ) : Except PyErr (List ℝ) :=
  match x with
  | .mat m rows => if m = d then .ok (rows.map fun _ => 1) else .error .assertion
  | _ => .error .assertion

/-- A call. -/
inductive Call where
  | condition (z : NArr ℝ)
  | sample
  | prob

/-- State after a call, whether it returned or raised. -/
def after (s : Nuisance d) : Call → Nuisance d
  | .condition z => (s.condition z).2
  | _ => s

end Nuisance
end Derived
end Verif
