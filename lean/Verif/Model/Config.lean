import Verif.Model.Benchmark

/-!
# Configuration files and the object `CBenchmark`: `benchmark/CBenchmark.py`, `benchmark/run_benchmark.py`

The files are given as the values `yaml.load` returns. What the constructors of targets and methods do is arbitrary.
-/

set_option linter.unusedSectionVars false
set_option autoImplicit false

namespace Verif
namespace Bench

/-- A value read by `yaml.load`. (Floating point numbers and dates, which the code read here does not look into, are
`other`.) -/
inductive Yaml where
  | bool (b : Bool)
  | int (n : ℤ)
  | str (s : String)
  | list (l : List Yaml)
  | map (l : List (String × Yaml))
  | other

namespace Yaml

/-- `y[k]` for a string `k`: KeyError for a missing key, TypeError for values that are not dictionaries. -/
def get (y : Yaml) (k : String) : Except PyErr Yaml :=
  match y with
  | .map l => match l.lookup k with
    | some v => .ok v
    | none => .error .key
  | _ => .error .type

/-- A number. Simplified: other values are rejected here, with a TypeError, and not where the program first computes with
them; `true` and `false` are not taken for numbers. -/
def asInt : Yaml → Except PyErr ℤ
  | .int n => .ok n
  | _ => .error .type

/-- A number that is not negative. Simplified as `asInt`. -/
def asNat : Yaml → Except PyErr ℕ
  | .int (.ofNat n) => .ok n
  | _ => .error .type

/-- A truth value. Simplified: python accepts every value. -/
def asBool : Yaml → Except PyErr Bool
  | .bool b => .ok b
  | _ => .error .type

def asStr : Yaml → Except PyErr String
  | .str s => .ok s
  | _ => .error .type

/-- Iteration over a list. Simplified: a dictionary or a string is rejected here. -/
def asList : Yaml → Except PyErr (List Yaml)
  | .list l => .ok l
  | _ => .error .type

end Yaml

/-- The attributes of `CBenchmark` (CBenchmark.py:31-56), the plot resolution left out; of the methods the names. -/
structure Bm (T : Type) where
  targets : List (T × String)
  ndims : List ℕ
  methods : List String
  batchSizes : List ℕ
  nsamples : List ℤ
  timeout : ℝ
  evalSampl : List ℕ
  metrics : List String
  nExperiments : ℕ
  rseed : ℤ
  outputFile : String
  generatePlots : Bool
  plotsPath : String
  debugText : Bool
  debugPlot : Bool
  debugPlotSave : Bool
  debugPlotSavePath : Option String

/-- What surrounds the object: the content of the files, and the constructors that `eval` calls (lines 75-76, 131-133). The
constructor of a target gives the object and its number of dimensions; it does not use the random generator. -/
structure Env (T : Type) (σ W V : Type*) where
  file : String → Option Yaml
  target : Yaml → Yaml → Except PyErr (T × ℕ)
  method : Yaml → List (String × Yaml) → Method T σ W V

variable {T : Type} {σ W μ V : Type*}

/-- `open` and `yaml.load` (CBenchmark.py:60-61, 83-84, 119-120). -/
def Env.read (E : Env T σ W V) (f : String) : Except PyErr Yaml :=
  match E.file f with
  | some y => .ok y
  | none => .error .os

namespace Bm

/-- CBenchmark.py:31-56 the constructor. -/
def new (T : Type) : Bm T :=
  ⟨[], [], [], [], [], 18000, [], [], 10, 0, "results.txt", false, "results_plot/", true, false, false, some "results_figures/"⟩

/-- CBenchmark.py:82-109 `load_config`, without the seeding (lines 102-103, see `Bench.run`). The number of repetitions is
read by `range`: a negative number gives none. -/
def loadConfig (y : Yaml) (b : Bm T) : Except PyErr (Bm T) := do
  let metrics ← (← (← y.get "metrics").asList).mapM Yaml.asStr
  let b := { b with metrics := metrics }
  let debug ← y.get "debug"
  let b := { b with debugText := ← (← debug.get "text").asBool }
  let plot ← debug.get "plot"
  let b := { b with debugPlot := ← (← plot.get "show").asBool }
  let b := { b with debugPlotSave := ← (← plot.get "save").asBool }
  let b := { b with debugPlotSavePath := some (← (← plot.get "path").asStr) }
  let b := { b with nExperiments := (← (← y.get "nreps").asInt).toNat }
  let b := { b with rseed := ← (← y.get "rseed").asInt }
  let out ← y.get "output"
  let b := { b with generatePlots := ← (← out.get "make_plots").asBool }
  let b := { b with plotsPath := ← (← out.get "plots_path").asStr }
  let _ ← out.get "plots_dpi"
  return b

/-- CBenchmark.py:122-138 one pass of the loop of `load_benchmark`; an exception of the constructor becomes a ValueError. -/
def loadTarget (E : Env T σ W V) (b : Bm T) (t : Yaml) : Except PyErr (Bm T) := do
  let b := { b with nsamples := b.nsamples ++ [← (← t.get "nsamples").asInt] }
  let b := { b with evalSampl := b.evalSampl ++ [← (← t.get "nsamples_eval").asNat] }
  let b := { b with batchSizes := b.batchSizes ++ [← (← t.get "batch_size").asNat] }
  let type ← t.get "type"
  let params ← t.get "params"
  match E.target type params with
  | .error _ => .error .value
  | .ok (obj, dims) =>
    let name ← (← t.get "name").asStr
    return { b with targets := b.targets ++ [(obj, name)], ndims := b.ndims ++ [dims] }

/-- CBenchmark.py:111-138 `load_benchmark`. -/
def loadBenchmark (E : Env T σ W V) (f : String) (b : Bm T) : Except PyErr (Bm T) := do
  let b := { b with targets := [], ndims := [], batchSizes := [], evalSampl := [], nsamples := [] }
  let y ← E.read f
  let ts ← (← y.get "targets").asList
  ts.foldlM (loadTarget E) b

/-- The name of an entry of the methods file. -/
def nameOf (y : Yaml) : Option String :=
  match y.get "name" with
  | .ok (.str s) => some s
  | _ => none

/-- CBenchmark.py:62-80 the method for one entry of the methods file: the object is built from `type` and `params`, then
`name` and `debug` are read from the entry. The name in the results is that of the entry (line 78). -/
def method (E : Env T σ W V) (y : Yaml) : Method T σ W V :=
  let m := match y.get "type", y.get "params" with
    | .ok type, .ok (.map ps) => E.method type ps
    | _, _ => E.method .other []
  { m with
    report := fun s => (m.report s).map fun r => { r with name := (nameOf y).getD r.name }
    new := fun t w =>
      match y.get "params" with
      | .error e => (.error e, w)
      | .ok (.map _) =>
        match y.get "type" with
        | .error e => (.error e, w)
        | .ok _ =>
          match m.new t w with
          | (.error e, w) => (.error e, w)
          | (.ok s, w) =>
            match (do let n ← y.get "name"; let _ ← n.asStr; y.get "debug") with
            | .error e => (.error e, w)
            | .ok _ => (.ok s, w)
      | .ok _ => (.error .attribute, w) }

/-- CBenchmark.py:60-63: the entries of the methods file. -/
def entries (E : Env T σ W V) (f : String) : Except PyErr (List Yaml) := do
  (← (← E.read f).get "methods").asList

/-- The names the methods have after `load_methods` has returned. -/
def names (ms : List Yaml) : List String := ms.filterMap nameOf

/-- CBenchmark.py:173-174 the evaluations: `zip` of the five lists (the number of evaluation points is used by the metrics,
which are arbitrary here). -/
def evaluations (b : Bm T) : List (Target T) :=
  ((b.targets.zip b.ndims).zip ((b.nsamples.zip b.evalSampl).zip b.batchSizes)).map fun (((t, name), dims), ((n, _), batch)) =>
    ⟨t, dims, name, n, batch⟩

/-- One plot file of `make_plots`: dimensions and name of the target, metric, and the methods shown. -/
structure PlotFile where
  dims : ℕ
  target : String
  metric : String
  methods : List String

/-- CBenchmark.py:250-265 the plots, in the order in which they are drawn. `dims` of a target is the value stored in
`self.ndims`. -/
def plots (b : Bm T) : List PlotFile :=
  (b.targets.zip b.ndims).flatMap fun t => b.metrics.map fun m => ⟨t.2, t.1.2, m, b.methods⟩

/-- What a run leaves behind: the object, the world, the output file (`none`: not touched) and the plots. -/
structure Result (T : Type) (W V : Type*) where
  obj : Bm T
  world : W
  file : Option (List Char × List (Row V))
  plots : List PlotFile

/-- CBenchmark.py:151-230 `run`. Creating directories and messages are left out, and the plots do not raise. Simplified:
when an exception is raised, the object is given as it was before the part that raised it (which is of no consequence for
the next run, property C141), and the generator as not yet seeded if loading a file failed. -/
noncomputable def run (o : Ops T σ W μ V) (E : Env T σ W V) (bf mf cf out : String) (fuel : ℕ) (b : Bm T) (w : W) :
    Out (Result T W V) :=
  let b := { b with outputFile := out }
  match (do loadConfig (← E.read cf) b) with
  | .error e => .raised e ⟨b, w, none, []⟩
  | .ok b =>
    match loadBenchmark E bf b with
    | .error e => .raised e ⟨b, w, none, []⟩
    | .ok b =>
      if b.targets = [] ∨ b.targets.length ≠ b.ndims.length ∨ b.ndims.length ≠ b.nsamples.length then
        .raised .assertion ⟨b, w, none, []⟩
      else
        let b := { b with debugPlotSavePath := if b.debugPlotSave then b.debugPlotSavePath else none }
        let head := header b.metrics
        match entries E mf with
        | .error e => .raised e ⟨b, w, some (head, []), []⟩
        | .ok ms =>
          match Bench.run o ⟨b.metrics, b.rseed, b.nExperiments, b.timeout⟩ fuel (ms.map (method E)) b.evaluations w with
          | .running p => .running ⟨b, p.1, some (head, p.2), []⟩
          | .raised e p => .raised e ⟨b, p.1, some (head, p.2), []⟩
          | .done p =>
            let b := { b with methods := names ms }
            .done ⟨b, p.1, some (head, p.2), if b.generatePlots then b.plots else []⟩

end Bm

/-- run_benchmark.py:14-26: the benchmark, methods, configuration and result files used for the command line `argv` (with
the name of the script in front); `dir` is the directory of the script. -/
def commandLine (dir : String) (argv : List String) : String × String × String × String :=
  match argv with
  | [_, b, m, c, o] => (b, m, c, o)
  | _ => (dir ++ "def_benchmark.yaml", dir ++ "def_methods.yaml", dir ++ "def_config.yaml", dir ++ "results/results.txt")

end Bench
end Verif
