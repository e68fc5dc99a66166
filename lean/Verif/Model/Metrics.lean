import Verif.Model.XF
import Verif.Model.Py
import Mathlib.Algebra.BigOperators.Fin

/-!
# Metrics: `metrics/divergences.py`, `metrics/statistics.py`, `metrics/performance.py`

The two arrays of (log) probabilities have the same length, they are represented by one list of pairs.
-/

set_option linter.unusedSectionVars false
set_option autoImplicit false

namespace Verif

/-- `np.logaddexp` on extended reals. -/
noncomputable def logaddexp : XF ℝ → XF ℝ → XF ℝ
  | .nan, _ => .nan
  | _, .nan => .nan
  | .pinf, _ => .pinf
  | _, .pinf => .pinf
  | .ninf, b => b
  | a, .ninf => a
  | .fin a, .fin b => .fin (Real.log (Real.exp a + Real.exp b))

/-- `np.logaddexp.reduce` (identity `-inf`). -/
noncomputable def logaddexpReduce (l : List (XF ℝ)) : XF ℝ := l.foldl logaddexp .ninf

/-- A pair of arrays of the same length. -/
abbrev Pairs (K : Type*) := List (XF K × XF K)

namespace KL

/-- divergences.py:138-139 `inliers`. -/
def logInlier {K : Type*} [Field K] [LinearOrder K] (x : XF K × XF K) : Bool :=
  XF.ltb .ninf x.1 && XF.ltb .ninf x.2

/-- divergences.py:147-148 in place normalisation of the inlier entries, the other entries are untouched. -/
noncomputable def normLogs (l : Pairs ℝ) : Pairs ℝ :=
  let inl := l.filter logInlier
  let zp := logaddexpReduce (inl.map Prod.fst)
  let zq := logaddexpReduce (inl.map Prod.snd)
  l.map fun x => if logInlier x then (x.1 - zp, x.2 - zq) else x

/-- divergences.py:151-152 one term. -/
noncomputable def logTerm (x : XF ℝ × XF ℝ) : XF ℝ :=
  if x.2.isNan then .pinf else XF.exp x.1 * (x.1 - x.2)

/-- divergences.py:135-153 `compute_from_log_probs`: the array of terms and the arrays left behind. The mask `inliers`
was computed before the normalisation. Empty arrays raise ZeroDivisionError at line 141. -/
noncomputable def computeFromLogProbs (l : Pairs ℝ) : Except PyErr (List (XF ℝ) × Pairs ℝ) :=
  if l.length = 0 then .error .zeroDivision else
  let l' := normLogs l
  let sel := maskSelect (l.map logInlier) l'
  .ok (sel.map logTerm, l')

/-- divergences.py:101-108 `compute_from_samples` given the log probabilities at the samples. -/
noncomputable def computeFromSamples (l : Pairs ℝ) : Except PyErr (XF ℝ) :=
  (computeFromLogProbs l).map fun r => r.1.sum

/-- divergences.py:113 `inliers`. -/
def inlier {K : Type*} [Field K] [LinearOrder K] (x : XF K × XF K) : Bool :=
  XF.ltb (.fin 0) x.1 && XF.ltb (.fin 0) x.2

/-- Result of `compute_from_probs`: an array or the scalar `np.inf` of line 127. -/
inductive ProbRes where
  | arr (r : List (XF ℝ))
  | inf

/-- divergences.py:130-132 one term. -/
noncomputable def probTerm (x : XF ℝ × XF ℝ) : XF ℝ :=
  if XF.leb x.2 (.fin 0) then .fin 0 else x.1 * XF.log (x.1 / x.2)

/-- divergences.py:110-133 `compute_from_probs`: result and the arrays left behind. -/
noncomputable def computeFromProbs (l : Pairs ℝ) : Except PyErr (ProbRes × Pairs ℝ) :=
  if l.length = 0 then .error .zeroDivision else
  let inl := l.filter inlier
  let sp := (inl.map Prod.fst).sum
  let sq := (inl.map Prod.snd).sum
  let l1 := if XF.ltb (.fin 0) sp then l.map (fun x => if inlier x then (x.1 / sp, x.2) else x) else l
  if XF.ltb (.fin 0) sq then
    let l2 := List.zipWith (fun b (x : XF ℝ × XF ℝ) => if b then (x.1, x.2 / sq) else x) (l.map inlier) l1
    .ok (.arr ((maskSelect (l.map inlier) l2).map probTerm), l2)
  else .ok (.inf, l1)

end KL

namespace JSD

/-- divergences.py:171-173 `inliers`. -/
def inlier {K : Type*} [Field K] [LinearOrder K] (x : XF K × XF K) : Bool :=
  ((XF.ltb (.fin 0) x.1 && XF.ltb (.fin 0) x.2) && !x.2.isNan) && !x.1.isNan

/-- divergences.py:188-189 one term given the mixture value. -/
noncomputable def term (p q m : XF ℝ) : XF ℝ :=
  .fin (1/2) * p * XF.log (p / m) + .fin (1/2) * q * XF.log (q / m)

/-- divergences.py:165-195 `compute_from_samples` given the probabilities at the samples. -/
noncomputable def compute (l : Pairs ℝ) : Except PyErr (XF ℝ) :=
  if l.length = 0 then .error .zeroDivision else
  let inl := l.filter inlier
  let sp := (inl.map Prod.fst).sum
  let sq := (inl.map Prod.snd).sum
  let pq := inl.map fun x => (x.1 / sp, x.2 / sq)
  let m := pq.map fun x => XF.fin (1/2) * (x.1 + x.2)
  let sm := m.sum
  let m' := m.map fun y => y / sm
  let res := List.zipWith (fun x y => term x.1 x.2 y) pq m'
  let res := res.filter fun r => !r.isNan
  .ok (res.sum / .fin (Real.log 2))

end JSD

namespace EVMSE

variable {K : Type*} [Field K] [LinearOrder K] {d : ℕ}

/-- One evaluation point with its two probabilities. -/
structure Row (K : Type*) (d : ℕ) where
  x : Fin d → K
  p : XF K
  q : XF K

/-- statistics.py:40-44 `np.sum(samples * w, axis=0)` with the normalised weights. -/
def expected (xs : List (Fin d → K)) (ps : List (XF K)) : Fin d → XF K := fun i =>
  (List.zipWith (fun x p => XF.fin (x i) * (p / ps.sum)) xs ps).sum

/-- statistics.py:37-47 `compute_from_samples` given the probabilities at the samples. -/
def compute (rows : List (Row K d)) : XF K :=
  let evp := expected (rows.map Row.x) (rows.map Row.p)
  let evq := expected (rows.map Row.x) (rows.map Row.q)
  ∑ i, (evp i - evq i) * (evp i - evq i)

end EVMSE

/-! ### Performance metrics -/

/-- performance.py:16-23 attributes of the elapsed time metric (`value` from metrics/base.py). -/
structure ElapsedTime (K : Type*) where
  tIni : K
  tEnd : K
  overhead : K
  value : K

namespace ElapsedTime
variable {K : Type*} [Field K]

/-- performance.py:39-40 `pre`; the clock reading is an input. -/
def pre (s : ElapsedTime K) (now : K) : ElapsedTime K := { s with tIni := now }

/-- performance.py:42-44 `post`. -/
def post (s : ElapsedTime K) (now : K) : ElapsedTime K :=
  { s with tEnd := now, value := s.value + (now - s.tIni - s.overhead) }

/-- performance.py:49-52 `reset`. -/
def reset (s : ElapsedTime K) : ElapsedTime K := { s with tIni := 0, tEnd := 0, value := 0 }

/-- performance.py:46-47 `compute`. -/
def compute (s : ElapsedTime K) : K := s.value

/-- performance.py:30-35 the calibration loop: the clock readings around each sleep are inputs; collects `vals`. -/
def calibrate (s : ElapsedTime K) : List (K × K) → ElapsedTime K × List K
  | [] => (s, [])
  | (a, b) :: rest =>
    let s1 := (s.pre a).post b
    let r := calibrate s1.reset rest
    (r.1, s1.compute :: r.2)

/-- performance.py:17-37 constructor; `readings` are the clock readings of the calibration loop (200 in the code),
`delta` is the sleeping time 0.01. -/
def new (readings : List (K × K)) (delta : K) : ElapsedTime K :=
  let r := calibrate ⟨0, 0, 0, 0⟩ readings
  { r.1 with overhead := r.2.sum / (readings.length : K) - delta }

end ElapsedTime

/-- performance.py:55-63 attributes of the memory metric. -/
structure MemoryUsage (K : Type*) where
  memIni : K
  memEnd : K
  memCum : K
  value : K

namespace MemoryUsage
variable {K : Type*} [Field K]

/-- performance.py:56-63 constructor. -/
def new : MemoryUsage K := ⟨0, 0, 0, 0⟩

/-- performance.py:65-67 `pre`; the heap size is an input. -/
def pre (s : MemoryUsage K) (heap : K) : MemoryUsage K := { s with memIni := heap }

/-- performance.py:69-73 `post`. -/
def post (s : MemoryUsage K) (heap : K) : MemoryUsage K :=
  { s with memEnd := heap, memCum := s.memCum + (heap - s.memIni), value := (s.memCum + (heap - s.memIni)) / 10 ^ 6 }

/-- performance.py:78-82 `reset`: `value` is not cleared. -/
def reset (s : MemoryUsage K) : MemoryUsage K := { s with memIni := 0, memEnd := 0, memCum := 0 }

/-- performance.py:75-76 `compute`. -/
def compute (s : MemoryUsage K) : K := s.value

end MemoryUsage
end Verif
