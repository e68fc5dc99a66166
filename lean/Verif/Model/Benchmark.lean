import Verif.Model.Loop
import Mathlib.Data.Real.Basic

/-!
# The benchmark driver: `benchmark/CBenchmark.py`

Methods, metrics and targets are arbitrary: an object of type `σ`, operated on in a world of type `W` (random generator,
clock, memory, ...) that every operation may read and change. The loop over calls of `importance_sample` gets a number of
iterations as fuel; running out of it is the outcome `running`. Progress messages, plots, animation and profiling are
left out, except that the messages can raise (see `finish`). Results always go to a file, as in `run`.
-/

set_option linter.unusedSectionVars false
set_option autoImplicit false

namespace Verif
namespace Bench

/-- The metric classes (CBenchmark.py:405-417). -/
inductive Kind where
  | kld | jsd | evmse | time | memory
  deriving DecidableEq

/-- CBenchmark.py:405-417: the metric created for an entry of the list `metrics`; none for `NESS` and unknown names. -/
def Kind.ofConfig (s : String) : Option Kind :=
  if s = "KLD" then some .kld
  else if s = "JSD" then some .jsd
  else if s = "NESS" then none
  else if s = "EVMSE" then some .evmse
  else if s = "T" then some .time
  else if s = "MEM" then some .memory
  else none

/-- The attribute `name` of a metric: divergences.py:96, 159, statistics.py:13, performance.py:19, 58. -/
def Kind.name : Kind → String
  | .kld => "KL"
  | .jsd => "JSD"
  | .evmse => "EVMSE"
  | .time => "time"
  | .memory => "memory"

/-- What write_results (CBenchmark.py:321-325) reads from the method. -/
structure Report (V : Type*) where
  ness : V
  name : String
  acceptRate : V
  numQ : ℕ
  numQEval : ℕ
  numPi : ℕ

/-- A line of the result file, before formatting. -/
structure Row (V : Type*) where
  dims : ℕ
  nsamples : ℕ
  values : List (String × V)
  report : Report V
  target : String

/-- A target with its evaluation parameters (CBenchmark.py:122-137). -/
structure Target (T : Type*) where
  obj : T
  dims : ℕ
  name : String
  maxSamples : ℤ
  batch : ℕ

/-- The operations of a sampling method used by the benchmark. `sample n timeout` is `importance_sample` and yields the
number of samples it returned. -/
structure Method (T σ W V : Type*) where
  new : T → W → Except PyErr σ × W
  reset : σ → W → Option PyErr × σ × W
  sample : T → ℕ → ℝ → σ → W → Except PyErr ℕ × σ × W
  report : σ → Except PyErr (Report V)

/-- The operations of metrics on their state `μ`, and `np.random.seed`. -/
structure Ops (T σ W μ V : Type*) where
  seed : ℕ → W → W
  new : Kind → W → μ × W
  reset : Kind → μ → W → μ × W
  pre : Kind → μ → W → μ × W
  post : Kind → μ → W → μ × W
  compute : T → Kind → μ → σ → W → Except PyErr V × μ × σ × W

variable {T σ W μ V : Type*}

/-- CBenchmark.py:404-417. -/
def newMetrics (o : Ops T σ W μ V) : List String → W → List (Kind × μ) × W
  | [], w => ([], w)
  | m :: ms, w =>
    match Kind.ofConfig m with
    | none => newMetrics o ms w
    | some k =>
      let r := o.new k w
      let rest := newMetrics o ms r.2
      ((k, r.1) :: rest.1, rest.2)

/-- `[m.pre() for m in metrics_eval]` and the like (lines 461, 480, 487). -/
def each (f : Kind → μ → W → μ × W) : List (Kind × μ) → W → List (Kind × μ) × W
  | [], w => ([], w)
  | (k, m) :: ms, w =>
    let r := f k m w
    let rest := each f ms r.2
    ((k, r.1) :: rest.1, rest.2)

/-- `results[name] = val` in a python dictionary: an existing key keeps its place. -/
def dictSet (d : List (String × V)) (key : String) (val : V) : List (String × V) :=
  if key ∈ d.map Prod.fst then d.map fun e => if e.1 = key then (key, val) else e else d ++ [(key, val)]

/-- The state of the evaluation: object, world, metrics, `len(samples_acc)`, `n_samples`, `sampling_time`, whether
`hr` is bound, and the lines written. -/
structure Rep (σ W μ V : Type*) where
  obj : σ
  w : W
  ms : List (Kind × μ)
  acc : ℕ
  n : ℕ
  samplingTime : ℝ
  bound : Bool
  lines : List (Row V)

/-- CBenchmark.py:529-532: all metrics are computed in order and stored in `results`. -/
def computeAll (o : Ops T σ W μ V) (t : T) : List (Kind × μ) → List (String × V) → σ → W →
    Except PyErr (List (String × V)) × List (Kind × μ) × σ × W
  | [], d, s, w => (.ok d, [], s, w)
  | (k, m) :: ms, d, s, w =>
    match o.compute t k m s w with
    | (.error e, m', s', w') => (.error e, (k, m') :: ms, s', w')
    | (.ok v, m', s', w') =>
      let rest := computeAll o t ms (dictSet d k.name v) s' w'
      (rest.1, (k, m') :: rest.2.1, rest.2.2)

/-- How an iteration of the loop ends. -/
inductive Step (σ : Type*) where
  | next (s : σ)
  | brk (s : σ)
  | raised (e : PyErr) (s : σ)

/-- CBenchmark.py:467-544 one iteration; 318-326 `write_results`, which writes nothing if the method's statistics raise. -/
noncomputable def iter (o : Ops T σ W μ V) (m : Method T σ W V) (t : Target T) (maxTime : ℝ) (r : Rep σ W μ V) :
    Step (Rep σ W μ V) :=
  let p := each o.pre r.ms r.w
  match m.sample t.obj r.n (maxTime - r.samplingTime) r.obj p.2 with
  | (.error e, s, w) => .raised e { r with obj := s, w := w, ms := p.1, bound := true }
  | (.ok k, s, w) =>
    let q := each o.post p.1 w
    let r := { r with acc := k, n := k + t.batch, bound := true }
    match computeAll o t.obj q.1 [] s q.2 with
    | (.error e, ms, s, w) => .raised e { r with obj := s, w := w, ms := ms }
    | (.ok d, ms, s, w) =>
      let r := { r with obj := s, w := w, ms := ms }
      match m.report s with
      | .error e => .raised e r
      | .ok rep =>
        let r := { r with lines := r.lines ++ [⟨t.dims, k, d, rep, t.name⟩] }
        if maxTime < r.samplingTime then .brk r else .next r

/-- CBenchmark.py:465-544 the loop. -/
noncomputable def loop (o : Ops T σ W μ V) (m : Method T σ W V) (t : Target T) (maxTime : ℝ) :
    ℕ → Rep σ W μ V → Out (Rep σ W μ V)
  | 0, r => if (r.acc : ℤ) < t.maxSamples then .running r else .done r
  | fuel + 1, r =>
    if (r.acc : ℤ) < t.maxSamples then
      match iter o m t maxTime r with
      | .next r => loop o m t maxTime fuel r
      | .brk r => .done r
      | .raised e r => .raised e r
    else .done r

/-- CBenchmark.py:546-555 the message after the loop: ZeroDivisionError for `max_samples = 0`, and the names `hr`, `mn`,
`sec` are only bound by an iteration of the loop (of this or an earlier repetition). -/
def finish (t : Target T) (r : Rep σ W μ V) : Out (Rep σ W μ V) :=
  if t.maxSamples = 0 then .raised .zeroDivision r else if r.bound then .done r else .raised .name r

/-- CBenchmark.py:455-555 one repetition. -/
noncomputable def repetition (o : Ops T σ W μ V) (m : Method T σ W V) (t : Target T) (maxTime : ℝ) (fuel : ℕ)
    (r : Rep σ W μ V) : Out (Rep σ W μ V) :=
  match m.reset r.obj r.w with
  | (some e, s, w) => .raised e { r with obj := s, w := w, samplingTime := 0 }
  | (none, s, w) =>
    let p := each o.reset r.ms w
    match loop o m t maxTime fuel { r with obj := s, w := p.2, ms := p.1, acc := 0, n := t.batch, samplingTime := 0 } with
    | .done r => finish t r
    | .raised e r => .raised e r
    | .running r => .running r

/-- Configuration: metrics, `rseed`, `n_reps`, time limit. -/
structure Config where
  metrics : List String
  rseed : ℤ
  nReps : ℕ
  maxTime : ℝ

/-- CBenchmark.py:393-569 `evaluate_method`: the lines it writes are those of the final state. -/
noncomputable def evaluate (o : Ops T σ W μ V) (c : Config) (m : Method T σ W V) (t : Target T) (fuel : ℕ) (s : σ) (w : W) :
    Out (Rep σ W μ V) :=
  let w := if 0 ≤ c.rseed then o.seed c.rseed.toNat w else w
  let p := newMetrics o c.metrics w
  forN (fun _ r => repetition o m t c.maxTime fuel r) c.nReps ⟨s, p.2, p.1, 0, t.batch, 0, false, []⟩

/-- CBenchmark.py:58-80 `load_methods`. -/
def loadMethods (t : T) : List (Method T σ W V) → W → Except PyErr (List (Method T σ W V × σ)) × W
  | [], w => (.ok [], w)
  | m :: ms, w =>
    match m.new t w with
    | (.error e, w) => (.error e, w)
    | (.ok s, w) =>
      match loadMethods t ms w with
      | (.error e, w) => (.error e, w)
      | (.ok l, w) => (.ok ((m, s) :: l), w)

/-- CBenchmark.py:179-197 the evaluations on one target: the state is the world and the lines of the file. -/
noncomputable def runMethods (o : Ops T σ W μ V) (c : Config) (fuel : ℕ) (t : Target T) :
    List (Method T σ W V × σ) → W × List (Row V) → Out (W × List (Row V))
  | [], p => .done p
  | (m, s) :: ms, p =>
    match m.reset s p.1 with
    | (some e, _, w) => .raised e (w, p.2)
    | (none, s, w) =>
      match evaluate o c m t fuel s w with
      | .done r => runMethods o c fuel t ms (r.w, p.2 ++ r.lines)
      | .raised e r => .raised e (r.w, p.2 ++ r.lines)
      | .running r => .running (r.w, p.2 ++ r.lines)

/-- CBenchmark.py:172-197 the evaluations on all targets. -/
noncomputable def runTargets (o : Ops T σ W μ V) (c : Config) (fuel : ℕ) (methods : List (Method T σ W V)) :
    List (Target T) → W × List (Row V) → Out (W × List (Row V))
  | [], p => .done p
  | t :: ts, p =>
    match loadMethods t.obj methods p.1 with
    | (.error e, w) => .raised e (w, p.2)
    | (.ok ms, w) =>
      match runMethods o c fuel t ms (w, p.2) with
      | .done p => runTargets o c fuel methods ts p
      | .raised e p => .raised e p
      | .running p => .running p

/-- CBenchmark.py:151-197 `run`, from the loaded configuration on (lines 102-103: the generator is seeded when it is
loaded): the rows of the file it writes. -/
noncomputable def run (o : Ops T σ W μ V) (c : Config) (fuel : ℕ) (methods : List (Method T σ W V)) (ts : List (Target T))
    (w : W) : Out (W × List (Row V)) :=
  let w := if 0 ≤ c.rseed then o.seed c.rseed.toNat w else w
  if ts = [] then .raised .assertion (w, []) else runTargets o c fuel methods ts (w, [])

/-! ### The text of the file -/

/-- Formatting of numbers: `nat` is `%d`, `dec p` is `%.pf`. -/
structure Fmt (V : Type*) where
  nat : ℕ → List Char
  dec : ℕ → V → List Char

/-- Padding to a width with blanks on the left, as `%9.5f` does. -/
def pad (width : ℕ) (s : List Char) : List Char := List.replicate (width - s.length) ' ' ++ s

/-- Padding with zeros, as `%02d` does for numbers that are not negative. -/
def zpad (width : ℕ) (s : List Char) : List Char := List.replicate (width - s.length) '0' ++ s

/-- `" ".join(l)`. -/
def join : List (List Char) → List Char
  | [] => []
  | [a] => a
  | a :: b :: l => a ++ ' ' :: join (b :: l)

/-- CBenchmark.py:167-168, without the newline. -/
def header (metrics : List String) : List Char :=
  "dims output_samples ".toList ++ join (metrics.map String.toList) ++
    " NESS method target_d accept_rate proposal_samples proposal_evals target_evals".toList

/-- CBenchmark.py:321-325, without the newline. -/
def rowText (F : Fmt V) (r : Row V) : List Char :=
  zpad 2 (F.nat r.dims) ++ ' ' :: (zpad 4 (F.nat r.nsamples) ++ ' ' ::
    (join (r.values.map fun e => pad 9 (F.dec 5 e.2)) ++ (pad 9 (F.dec 3 r.report.ness) ++ ' ' ::
      (r.report.name.toList ++ ' ' :: (r.target.toList ++ ' ' :: (pad 5 (F.dec 3 r.report.acceptRate) ++ ' ' ::
        (F.nat r.report.numQ ++ ' ' :: (F.nat r.report.numQEval ++ ' ' :: F.nat r.report.numPi))))))))

end Bench
end Verif
