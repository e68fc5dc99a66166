import Verif.Model.Nested
import Mathlib.LinearAlgebra.Matrix.Determinant.Basic
import Mathlib.Analysis.SpecialFunctions.Gamma.Basic
import Mathlib.Analysis.SpecialFunctions.Sqrt

/-!
# Multi-nested sampling: `sampling_methods/multi_nested.py`

The object is that of nested sampling (`Nested.Nest`; the stored ellipsoids are only used for drawing). `KMeans` is
an arbitrary function `km`: `km k i` is the label it gives to point `i` when asked for `k` clusters (along one recursion
every `k` is asked for at most once).
-/

set_option linter.unusedSectionVars false
set_option autoImplicit false

namespace Verif
namespace MultiNested

open Nested (Nest addSample minOf finalWeights count)

variable {d : ℕ}

/-- Parameters. -/
structure Cfg (d : ℕ) where
  lo : Fin d → ℝ
  hi : Fin d → ℝ
  target : (Fin d → ℝ) → ℝ
  N : ℕ
  nKde : ℕ
  radius : ℝ
  inflate : ℝ

/-- multi_nested.py:14-35: location, volume and (as increasing list) the set positions of the mask `indices`. -/
structure Ell (d : ℕ) where
  loc : Fin d → ℝ
  vol : ℝ
  idx : List ℕ

/-- multi_nested.py:33 `sphere_vol`. -/
noncomputable def sphereVol (d : ℕ) : ℝ := 2 / d * (Real.pi ^ ((d : ℝ) / 2) / Real.Gamma ((d : ℝ) / 2))

/-- multi_nested.py:45 `np.mean(points, axis=0)`. -/
noncomputable def mean (pts : List (Fin d → ℝ)) : Fin d → ℝ := fun j => (pts.map fun x => x j).sum / pts.length

/-- multi_nested.py:50 `np.cov(points, rowvar=False)`. -/
noncomputable def cov (pts : List (Fin d → ℝ)) : Matrix (Fin d) (Fin d) ℝ :=
  Matrix.of fun i j => (pts.map fun x => (x i - mean pts i) * (x j - mean pts j)).sum / (pts.length - 1)

/-- multi_nested.py:56 `np.std(points)` for points with a single coordinate. -/
noncomputable def std (pts : List (Fin d → ℝ)) : ℝ :=
  Real.sqrt ((pts.map fun x => ∑ j, (x j - mean pts j) ^ 2).sum / pts.length)

/-- multi_nested.py:15-35 the constructor (the mask is set by the caller). -/
noncomputable def mkEll (loc : Fin d → ℝ) (scale : Matrix (Fin d) (Fin d) ℝ) (idx : List ℕ) : Except PyErr (Ell d) :=
  if scale.det ≤ 0 then .error .value else .ok ⟨loc, sphereVol d * scale.det, idx⟩

/-- multi_nested.py:43-63 `fit`, for `d >= 1`. -/
noncomputable def fit (inflate : ℝ) (pts : List (Fin d → ℝ)) (idx : List ℕ) : Except PyErr (Ell d) :=
  if pts.length < d then .error .assertion
  else if 1 < d then
    if (cov pts).det ≤ 0 then mkEll (mean pts) (Matrix.diagonal fun _ => inflate) idx
    else mkEll (mean pts) (inflate • cov pts) idx
  else
    if std pts ≤ 0 then mkEll (mean pts) (Matrix.diagonal fun _ => inflate) idx
    else mkEll (mean pts) (Matrix.diagonal fun _ => std pts * inflate) idx

/-- multi_nested.py:126-128 `ellipsoid_distance`. -/
noncomputable def dist (e₁ e₂ : Ell d) : ℝ := Real.sqrt (∑ i, (e₁.loc i - e₂.loc i) * (e₁.loc i - e₂.loc i))

/-- multi_nested.py:174-179 sum and number of the distances of pairs. -/
noncomputable def pairDistances : List (Ell d) → List ℝ
  | [] => []
  | e :: es => es.map (dist e) ++ pairDistances es

/-- multi_nested.py:148, 158, 161: the points with label `i`. -/
def cluster (km : ℕ → ℕ → ℕ) (k N i : ℕ) : List ℕ := (List.range N).filter fun p => km k p == i

/-- multi_nested.py:157-166 the ellipsoids of the clusters. -/
noncomputable def fitAll (c : Cfg d) (km : ℕ → ℕ → ℕ) (pts : List (Fin d → ℝ)) (k : ℕ) : ℕ → Except PyErr (List (Ell d))
  | 0 => .ok []
  | i + 1 =>
    match fitAll c km pts k i with
    | .error e => .error e
    | .ok es =>
      match fit c.inflate ((cluster km k pts.length i).map fun p => pts.getD p 0) (cluster km k pts.length i) with
      | .error e => .error e
      | .ok e => .ok (es ++ [e])

/-- multi_nested.py:130-189 `recursive_clustering` below the first ellipsoid; `none` when `fuel` recursive calls were not
enough. `KMeans.fit` raises ValueError when there are fewer points than clusters. -/
noncomputable def clustering (c : Cfg d) (km : ℕ → ℕ → ℕ) (pts : List (Fin d → ℝ)) :
    ℕ → List (Ell d) → Option (Except PyErr (List (Ell d)))
  | 0, _ => none
  | fuel + 1, ells =>
    let k := ells.length + 1
    if pts.length < k then some (.error .value)
    else if (List.range k).any fun i => decide ((cluster km k pts.length i).length < d + 1) then some (.ok ells)
    else
      match fitAll c km pts k k with
      | .error e => some (.error e)
      | .ok es =>
        if 0.8 < (es.map Ell.vol).sum / (ells.map Ell.vol).sum then some (.ok ells)
        else if (pairDistances es).sum / (pairDistances es).length < 0.2 then some (.ok ells)
        else clustering c km pts fuel es

/-- multi_nested.py:130-189 `recursive_clustering`. -/
noncomputable def recursiveClustering (c : Cfg d) (km : ℕ → ℕ → ℕ) (fuel : ℕ) (pts : List (Fin d → ℝ)) :
    Option (Except PyErr (List (Ell d))) :=
  match fit c.inflate pts (List.range pts.length) with
  | .error e => some (.error e)
  | .ok e => clustering c km pts fuel [e]

/-- One execution of multi_nested.py:117-121: the point drawn from the ellipsoid and the clock. -/
structure Try (d : ℕ) where
  y : Fin d → ℝ
  late : Bool

/-- Random outcomes and clock of one iteration of multi_nested.py:203-217. -/
structure Env (d : ℕ) where
  y0 : Fin d → ℝ
  expired : Bool
  tries : List (Try d)

/-- multi_nested.py:105-123 `resample`. Only the first candidate is clipped; an ellipsoid of small volume makes the first
candidate acceptable. -/
noncomputable def resample (c : Cfg d) (el : Ell d) (value : ℝ) (e : Env d) (S : Nest d) : Out (Nest d × (Fin d → ℝ) × ℝ) :=
  let y0 := clip c.lo c.hi e.y0
  whileScript (fun p => decide (p.2.2 < value) && decide (c.radius ^ d < el.vol)) Try.late
    (fun t p => ((count p.1, t.y, c.target t.y), none)) e.expired e.tries (count S, y0, c.target y0)

/-- multi_nested.py:203-217 one iteration for the ellipsoid `el`; the second component is the local variable `values`. -/
noncomputable def step (c : Cfg d) (el : Ell d) (e : Env d) (p : Nest d × List ℝ) : Out (Nest d × List ℝ) :=
  match el.idx.map fun i => p.2.getD i 0 with
  | [] => .raised .value p
  | v :: vs =>
    let Lmin := minOf v vs
    let k := el.idx.getD ((v :: vs).idxOf Lmin) 0
    let S := addSample k p.1
    let S := { S with L := S.L ++ [Lmin] }
    match resample c el Lmin e S with
    | .running q => .running (q.1, p.2)
    | .raised err q => .raised err (q.1, p.2)
    | .done q => .done ({ q.1 with live := q.1.live.set k q.2.1 }, p.2.set k q.2.2)

/-- multi_nested.py:200-201 samples per ellipsoid. -/
def perEll (n len k : ℕ) : ℕ := max ((n - len) / k) 1

/-- multi_nested.py:191-230 `importance_sample`: iteration `i` of the flattened double loop of lines 202-203 works on
ellipsoid `i / perEll`. -/
noncomputable def importanceSample (c : Cfg d) (n : ℕ) (km : ℕ → ℕ → ℕ) (fuel : ℕ) (env : ℕ → Env d) (idx : ℕ → ℕ)
    (S : Nest d) : Out (Nest d) :=
  let S0 : Nest d := { S with numPi := S.numPi + S.live.length }
  match recursiveClustering c km fuel S.live with
  | none => .running S0
  | some (.error e) => .raised e S0
  | some (.ok ells) =>
    let m := perEll n S.samples.length ells.length
    match forN (fun i => step c (ells.getD (i / m) ⟨0, 0, []⟩) (env i)) (ells.length * m) (S0, S.live.map c.target) with
    | .running p => .running p.1
    | .raised e p => .raised e p.1
    | .done p =>
      if p.1.samples = [] then .raised .index p.1
      else
        let S := { p.1 with weights := finalWeights c.N p.1.L }
        match MHast.updateModel c.nKde idx S.samples with
        | .error e => .raised e S
        | .ok m => .done { S with kde := some m }

/-- multi_nested.py:67-99 constructor and `reset`. -/
def reset (c : Cfg d) (us : Fin c.N → Fin d → ℝ) : Nest d :=
  ⟨List.ofFn fun k i => us k i * (c.hi i - c.lo i) + c.lo i, [], none, [], [], none, 0, 0, 0⟩

end MultiNested
end Verif
