import Verif.Model.MH
import Mathlib.Analysis.SpecialFunctions.Exp

/-!
# Nested sampling: `sampling_methods/nested.py`

The target enters through its `prob`, with finite values. Points are vectors of the space.
-/

set_option linter.unusedSectionVars false
set_option autoImplicit false

namespace Verif
namespace Nested

variable {d : ℕ}

/-- Parameters. -/
structure Cfg (d : ℕ) where
  lo : Fin d → ℝ
  hi : Fin d → ℝ
  target : (Fin d → ℝ) → ℝ
  N : ℕ
  nKde : ℕ

/-- Object state: nested.py:13-21, base.py:21-26, 138. `self.samples` is an array of its own (`own`), or, while `view` is
`some i`, a view of row `i` of `self.live_points` (see `addSample`). -/
structure Nest (d : ℕ) where
  live : List (Fin d → ℝ)
  own : List (Fin d → ℝ)
  view : Option ℕ
  L : List ℝ
  weights : List (XF ℝ)
  kde : Option (List (Fin d → ℝ))
  numPi : ℕ
  numQEval : ℕ
  numQ : ℕ

/-- What the caller sees as `self.samples`. -/
def Nest.samples (S : Nest d) : List (Fin d → ℝ) :=
  match S.view with
  | none => S.own
  | some i => [S.live.getD i 0]

/-- nested.py:11-29 the constructor, which ends with `reset`: the rows of `us` are the numbers drawn by
`np.random.uniform(0, 1, size=(N, d))`. -/
def reset (c : Cfg d) (us : Fin c.N → Fin d → ℝ) : Nest d :=
  ⟨List.ofFn fun k i => us k i * (c.hi i - c.lo i) + c.lo i, [], none, [], [], none, 0, 0, 0⟩

/-- One execution of nested.py:41-45. -/
structure Try (d : ℕ) where
  z : Fin d → ℝ
  late : Bool

/-- Random outcomes and clock of one iteration of nested.py:56-67: index drawn by `np.random.randint` (modulo the number
of live points), offset of line 32, `0 >= timeout`, tries of lines 40-45. -/
structure Env (d : ℕ) where
  r : ℕ
  z0 : Fin d → ℝ
  expired : Bool
  tries : List (Try d)

/-- nested.py:33, 35 / 42, 44 counters. -/
def count (S : Nest d) : Nest d := { S with numQ := S.numQ + 1, numPi := S.numPi + 1 }

/-- nested.py:31-46 `resample` around the point `x`. Only the first candidate is clipped to the search space. -/
noncomputable def resample (c : Cfg d) (x : Fin d → ℝ) (value : ℝ) (e : Env d) (S : Nest d) :
    Out (Nest d × (Fin d → ℝ) × ℝ) :=
  let y0 := clip c.lo c.hi (e.z0 + x)
  whileScript (fun p => decide (p.2.2 < value)) Try.late
    (fun t p => ((count p.1, t.z + x, c.target (t.z + x)), none)) e.expired e.tries (count S, y0, c.target y0)

/-- nested.py:58 `np.min`. -/
noncomputable def minOf (v : ℝ) (vs : List ℝ) : ℝ := vs.foldl min v

/-- nested.py:60: `vstack` copies; without samples `self.samples` becomes `self.live_points[k].reshape(1, -1)`, which numpy
returns as a view of the row. -/
def addSample (k : ℕ) (S : Nest d) : Nest d :=
  if S.samples = [] then { S with own := [], view := some k }
  else { S with own := S.samples ++ [S.live.getD k 0], view := none }

/-- nested.py:58-67 one iteration; the second component is the local variable `values`. -/
noncomputable def step (c : Cfg d) (e : Env d) : Nest d × List ℝ → Out (Nest d × List ℝ)
  | (S, []) => .raised .value (S, [])
  | (S, v :: vs) =>
    let Lmin := minOf v vs
    let k := (v :: vs).idxOf Lmin
    let S := addSample k S
    let S := { S with L := S.L ++ [Lmin] }
    match resample c (S.live.getD (e.r % S.live.length) 0) Lmin e S with
    | .running p => .running (p.1, v :: vs)
    | .raised err p => .raised err (p.1, v :: vs)
    | .done p => .done ({ p.1 with live := p.1.live.set k p.2.1 }, (v :: vs).set k p.2.2)

/-- nested.py:70 `X`. -/
noncomputable def X (N i : ℕ) : ℝ := Real.exp (-(i : ℝ) / N)

/-- nested.py:71-72 `W`. -/
noncomputable def W (N : ℕ) : ℕ → ℝ
  | 0 => X N 0
  | i + 1 => X N i - X N (i + 1)

/-- nested.py:73 `Z`. -/
noncomputable def Z (N : ℕ) (L : List ℝ) : ℝ := (L.mapIdx fun i l => l * W N i).sum

/-- nested.py:75. -/
noncomputable def finalWeights (N : ℕ) (L : List ℝ) : List (XF ℝ) :=
  L.mapIdx fun i l => XF.fin (l * W N i) / XF.fin (Z N L)

/-- nested.py:52-77 `importance_sample`; without samples `X[0]` is an IndexError. -/
noncomputable def importanceSample (c : Cfg d) (n : ℕ) (env : ℕ → Env d) (idx : ℕ → ℕ) (S : Nest d) : Out (Nest d) :=
  match forN (fun i => step c (env i)) (n - S.samples.length)
      ({ S with numPi := S.numPi + S.live.length }, S.live.map c.target) with
  | .running p => .running p.1
  | .raised e p => .raised e p.1
  | .done p =>
    if p.1.samples = [] then .raised .index p.1
    else
      let S := { p.1 with weights := finalWeights c.N p.1.L }
      match MHast.updateModel c.nKde idx S.samples with
      | .error e => .raised e S
      | .ok m => .done { S with kde := some m }

end Nested
end Verif
