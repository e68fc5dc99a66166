import Verif.Model.Config
import Verif.Model.ResultText

/-!
# The plot files: `CBenchmark.make_plots` and `benchmark/run_plots.py`

What is drawn into a plot is the subject of `Model/Plot.lean`. Here: which plots there are, which rows of the result file each
of them shows, the files they are written to, and plotting without running.
-/

set_option linter.unusedSectionVars false
set_option autoImplicit false

namespace Verif
namespace Bench
namespace Bm

variable {T : Type} {σ W μ V : Type*}

/-- CBenchmark.py:264-265: the file a plot is written to, `generate_plots_path + "%dD_%s_%s.pdf"`. -/
def PlotFile.path (dir : String) (p : PlotFile) : List Char :=
  dir.toList ++ (natText p.dims ++ 'D' :: '_' :: (p.target.toList ++ '_' :: (p.metric.toList ++ ".pdf".toList)))

/-- CBenchmark.py:294-296: the rows of the result file that the curve of the method `name` shows. -/
def PlotFile.rows (p : PlotFile) (name : String) (rows : List (Row V)) : List (Row V) :=
  rows.filter fun r => r.report.name == name && (r.dims == p.dims && r.target == p.target)

/-- CBenchmark.py:243-244: `load_methods` for every target. -/
def loadForAll (ms : List (Method T σ W V)) : List T → W → Except PyErr Unit × W
  | [], w => (.ok (), w)
  | t :: ts, w =>
    match loadMethods t ms w with
    | (.error e, w) => (.error e, w)
    | (.ok _, w) => loadForAll ms ts w

/-- CBenchmark.py:236-237. -/
def plotBenchmark (E : Env T σ W V) (bf : Option String) (b : Bm T) : Except PyErr (Bm T) :=
  match bf with
  | none => .ok b
  | some f => loadBenchmark E f b

/-- CBenchmark.py:239-240, with the seeding of `load_config` (lines 102-103). -/
def plotConfig (o : Ops T σ W μ V) (E : Env T σ W V) (cf : Option String) (b : Bm T) (w : W) : Except PyErr (Bm T) × W :=
  match cf with
  | none => (.ok b, w)
  | some f =>
    match (do loadConfig (← E.read f) b) with
    | .error e => (.error e, w)
    | .ok b => (.ok b, if 0 ≤ b.rseed then o.seed b.rseed.toNat w else w)

/-- CBenchmark.py:242-244. Without targets the file is not read and the methods stay. -/
def plotMethods (E : Env T σ W V) (mf : Option String) (b : Bm T) (w : W) : Except PyErr (Bm T) × W :=
  match mf with
  | none => (.ok b, w)
  | some f =>
    if b.targets.zip b.ndims = [] then (.ok b, w)
    else
      match entries E f with
      | .error e => (.error e, w)
      | .ok ms =>
        match loadForAll (ms.map (method E)) ((b.targets.zip b.ndims).map fun t => t.1.1) w with
        | (.error e, w) => (.error e, w)
        | (.ok _, w) => (.ok { b with methods := names ms }, w)

/-- CBenchmark.py:235-272 `make_plots`: the object afterwards, whose attribute `output_file` is the file the data is read from,
the plots and the world. Reading that file and drawing do not raise here. -/
def makePlots (o : Ops T σ W μ V) (E : Env T σ W V) (bf mf cf res : Option String) (b : Bm T) (w : W) :
    Except PyErr (Bm T × List PlotFile) × W :=
  match plotBenchmark E bf b with
  | .error e => (.error e, w)
  | .ok b =>
    match plotConfig o E cf b w with
    | (.error e, w) => (.error e, w)
    | (.ok b, w) =>
      match plotMethods E mf b w with
      | (.error e, w) => (.error e, w)
      | (.ok b, w) => (.ok ({ b with outputFile := res.getD b.outputFile }, b.plots), w)

end Bm

/-- run_plots.py:10-21: the files used for the command line `argv` (with the name of the script in front). -/
def plotsCommandLine (dir : String) (argv : List String) : String × String × String :=
  match argv with
  | [_, b, m, c] => (b, m, c)
  | _ => (dir ++ "def_benchmark.yaml", dir ++ "def_methods.yaml", dir ++ "def_config.yaml")

/-- run_plots.py:8-24: the script. -/
def runPlots {T : Type} {σ W μ V : Type*} (o : Ops T σ W μ V) (E : Env T σ W V) (dir : String) (argv : List String) (w : W) :
    Except PyErr (Bm T × List Bm.PlotFile) × W :=
  let f := plotsCommandLine dir argv
  Bm.makePlots o E (some f.1) (some f.2.1) (some f.2.2) none (Bm.new T) w

end Bench
end Verif
