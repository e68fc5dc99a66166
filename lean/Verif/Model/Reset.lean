import Verif.Model.AIS
import Verif.Model.MPMC
import Verif.Model.MH
import Verif.Model.Rejection
import Verif.Model.Nested
import Verif.Model.MultiNested
import Verif.Model.TreePyramid
import Verif.Model.HiDaisee

/-!
# `reset` of the samplers as an operation on an existing object

The other model files give the state after `reset` directly. Here `reset` starts from an arbitrary state of the object and
assigns the attributes one by one as the code does, so that an attribute that is not assigned keeps its value.
The attribute `variogram` (base.py:26, 35) is never read and left out.
-/

set_option linter.unusedSectionVars false
set_option autoImplicit false

namespace Verif

section population
variable {K : Type*} [Field K] [LinearOrder K] {d : ℕ}

/-- base.py:29-35 `CSamplingMethod.reset`. -/
def AIS.baseReset (S : AIS K d) : AIS K d := { S with numPi := 0, numQEval := 0, numQ := 0, samples := [], weights := [] }

/-- dm_ais.py:35-40, layered_ais.py:42-47: the list of proposals is emptied and refilled. -/
def AIS.refill (lo hi : Fin d → K) (u : ℕ → Fin d → K) : ℕ → AIS K d → AIS K d
  | 0, S => { S with centers := [] }
  | n + 1, S => let S := AIS.refill lo hi u n S; { S with centers := S.centers ++ [fun i => lo i + (hi i - lo i) * u n i] }

/-- dm_ais.py:31-45, layered_ais.py:38-52 `reset` of the object `S`. -/
def AIS.resetFrom (N : ℕ) (lo hi : Fin d → K) (u : ℕ → Fin d → K) (S : AIS K d) : Except PyErr (AIS K d) :=
  let S := AIS.refill lo hi u N S.baseReset
  if S.centers.length = 0 then .error .zeroDivision
  else
    match setWeights S.centers.length (List.replicate S.centers.length (XF.fin (1 / (S.centers.length : K)))) with
    | .error e => .error e
    | .ok w => .ok { S with modelWeights := w }

/-- tree_pyramid.py:335-340 `reset` of the object `S`. -/
def TPSampler.resetFrom (dmin dmax : Pt K d) (S : TPSampler K d) : Except PyErr (TPSampler K d) :=
  let S := { S with numPi := 0, numQEvals := 0, numQ := 0 }
  match TPTree.init dmin dmax with
  | .error e => .error e
  | .ok T =>
    let S := { S with T := T }
    .ok { S with model := (S.T.centers.zip S.T.radii, [XF.fin 1]) }

/-- hi_daisee.py:187-198 `reset` of the object `S`. -/
def HiD.resetFrom (lo hi : Pt K d) (S : HiD.Sampler K d) : HiD.Sampler K d :=
  let S := { S with numPi := 0, numQEval := 0, numQ := 0, samples := [], weights := [] }
  let S := { S with T := HiD.Tree.init lo hi }
  { S with model := ([(fun i => (hi i + lo i) / 2, fun i => (hi i - lo i) / 2)], [XF.fin 1]) }

end population

section real
variable {d : ℕ}

/-- m_pmc.py:35-51 `reset` of the object `S`. -/
noncomputable def PMC.resetFrom {N : ℕ} (sigma : ℝ) (lo hi : Fin d → ℝ) (u : Fin N → Fin d → ℝ) (S : PMC d N) :
    Except PyErr (PMC d N) :=
  let S := { S with numPi := 0, numQEval := 0, numQ := 0, samples := [], weights := [] }
  if N = 0 then .error .zeroDivision
  else if 0 < (Matrix.diagonal fun _ : Fin d => sigma).det then
    let S := { S with means := fun n i => .fin (lo i + (hi i - lo i) * u n i), covs := fun _ => Matrix.diagonal fun _ => sigma }
    let S := { S with alpha := fun _ => .fin (1 / (N : ℝ)) }
    match setWeights N (List.ofFn S.alpha) with
    | .error e => .error e
    | .ok w => .ok { S with modelWeights := w }
  else .error .assertion

/-- metropolis_hastings.py:77-81 `reset` of the object `S`: `current_sample` is not assigned. -/
def MHast.resetFrom (S : MHast.MH d) : MHast.MH d :=
  let S := { S with numPi := 0, numQEval := 0, numQ := 0, samples := [], weights := [] }
  let S := { S with kde := none }
  { S with isInit := false, trajS := [], trajT := [] }

/-- base.py:141-143 `reset` of a rejection sampler; a new observer of the proposal starts counting. -/
def Rejection.resetFrom (S : Rejection.Rej d) : Rejection.Rej d :=
  let S := { S with numPi := 0, numQEval := 0, numQ := 0, samples := [], weights := [] }
  { S with kde := none, drawn := 0 }

/-- nested.py:25-29 `reset` of the object `S`. -/
def Nested.resetFrom (c : Nested.Cfg d) (us : Fin c.N → Fin d → ℝ) (S : Nested.Nest d) : Nested.Nest d :=
  let S := { S with live := List.ofFn fun k i => us k i * (c.hi i - c.lo i) + c.lo i }
  let S := { S with L := [] }
  let S := { S with numPi := 0, numQEval := 0, numQ := 0, own := [], view := none, weights := [] }
  { S with kde := none }

/-- A multi-nested sampler with its attribute `ellipsoids` (multi_nested.py:88, 228), which no method reads. -/
structure MultiNested.Obj (d : ℕ) where
  nest : Nested.Nest d
  ellipsoids : List (MultiNested.Ell d)

/-- multi_nested.py:80-93 constructor. -/
def MultiNested.Obj.new (c : MultiNested.Cfg d) (us : Fin c.N → Fin d → ℝ) : MultiNested.Obj d :=
  ⟨MultiNested.reset c us, []⟩

/-- multi_nested.py:95-99 `reset` of the object `S`: `ellipsoids` is not assigned. -/
def MultiNested.resetFrom (c : MultiNested.Cfg d) (us : Fin c.N → Fin d → ℝ) (S : MultiNested.Obj d) : MultiNested.Obj d :=
  let n := { S.nest with live := List.ofFn fun k i => us k i * (c.hi i - c.lo i) + c.lo i }
  let n := { n with L := [] }
  let n := { n with numPi := 0, numQEval := 0, numQ := 0, own := [], view := none, weights := [] }
  { S with nest := { n with kde := none } }

/-- multi_nested.py:191-230 `importance_sample` on the object: line 228 stores the ellipsoids found, when it is reached.
A caller sees everything but `ellipsoids` in `Out (Nest d)`. -/
noncomputable def MultiNested.Obj.importanceSample (c : MultiNested.Cfg d) (n : ℕ) (km : ℕ → ℕ → ℕ) (fuel : ℕ)
    (env : ℕ → MultiNested.Env d) (idx : ℕ → ℕ) (S : MultiNested.Obj d) : Out (Nested.Nest d) × List (MultiNested.Ell d) :=
  let out := MultiNested.importanceSample c n km fuel env idx S.nest
  match out, MultiNested.recursiveClustering c km fuel S.nest.live with
  | .done _, some (.ok ells) => (out, ells)
  | _, _ => (out, S.ellipsoids)

end real
end Verif
