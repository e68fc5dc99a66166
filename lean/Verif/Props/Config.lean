import Verif.Model.Config

/-!
# C141, C142: a benchmark object can be used again; the documented way of running a benchmark
-/

set_option linter.unusedSectionVars false
set_option autoImplicit false

namespace Verif
namespace Bench
namespace Bm

variable {T : Type} {σ W μ V : Type*}

theorem bind_map {α β γ : Type} (k : β → γ) (x : Except PyErr α) {f : α → Except PyErr γ} {g : α → Except PyErr β}
    (h : ∀ a, f a = (g a).map k) : (x >>= f) = (x >>= g).map k := by
  cases x with
  | error => rfl
  | ok a => exact h a

/-- The attributes that `load_config` does not set. -/
def keep (b c : Bm T) : Bm T :=
  { c with targets := b.targets, ndims := b.ndims, methods := b.methods, batchSizes := b.batchSizes,
           nsamples := b.nsamples, evalSampl := b.evalSampl, timeout := b.timeout, outputFile := b.outputFile }

theorem loadConfig_keep (y : Yaml) (b b' : Bm T) : loadConfig y b = (loadConfig y b').map (keep b) := by
  unfold loadConfig
  dsimp only
  repeat (refine bind_map (keep b) _ fun _ => ?_)
  rfl

theorem loadConfig_kept {y : Yaml} {b c : Bm T} (h : loadConfig y b = .ok c) :
    c.timeout = b.timeout ∧ c.outputFile = b.outputFile := by
  have hk := loadConfig_keep y b b
  rw [h] at hk
  simp only [Except.map, Except.ok.injEq] at hk
  exact ⟨(congrArg Bm.timeout hk : c.timeout = (keep b c).timeout), (congrArg Bm.outputFile hk : c.outputFile = (keep b c).outputFile)⟩

/-- The attribute that neither `load_config` nor `load_benchmark` sets. -/
def keepMethods (m : List String) (b : Bm T) : Bm T := { b with methods := m }

theorem loadTarget_methods (E : Env T σ W V) (m : List String) (b : Bm T) (t : Yaml) :
    loadTarget E (keepMethods m b) t = (loadTarget E b t).map (keepMethods m) := by
  unfold loadTarget
  dsimp only
  repeat (refine bind_map (keepMethods m) _ fun _ => ?_)
  split
  · rfl
  · repeat (refine bind_map (keepMethods m) _ fun _ => ?_)
    rfl

theorem loadTargets_methods (E : Env T σ W V) (m : List String) : ∀ (ts : List Yaml) (b : Bm T),
    ts.foldlM (loadTarget E) (keepMethods m b) = (ts.foldlM (loadTarget E) b).map (keepMethods m)
  | [], b => rfl
  | t :: ts, b => by
    rw [List.foldlM_cons, List.foldlM_cons, loadTarget_methods]
    cases loadTarget E b t with
    | error => rfl
    | ok c => exact loadTargets_methods E m ts c

/-- `load_benchmark` forgets the targets of the object. -/
theorem loadBenchmark_forgets (E : Env T σ W V) (f : String) (b c : Bm T) (ht : b.timeout = c.timeout)
    (ho : b.outputFile = c.outputFile) :
    loadBenchmark E f (keep b c) = (loadBenchmark E f c).map (keepMethods b.methods) := by
  unfold loadBenchmark
  dsimp only
  refine bind_map _ _ fun y => ?_
  refine bind_map _ _ fun l => ?_
  refine bind_map _ _ fun ts => ?_
  rw [← loadTargets_methods]
  congr 1
  unfold keep keepMethods
  simp only [ht, ho]

/-- What can be seen of a run: how it ends, the random generator (and the rest of the world), the output file and the plots;
of a run that returns also all attributes of the object. -/
def seen : Out (Result T W V) → Out (Option (Bm T) × W × Option (List Char × List (Row V)) × List PlotFile)
  | .done r => .done (some r.obj, r.world, r.file, r.plots)
  | .raised e r => .raised e (none, r.world, r.file, r.plots)
  | .running r => .running (none, r.world, r.file, r.plots)

/-- **C141** A benchmark object can be used again. Whatever the attributes of two benchmark objects are, left over from
earlier runs, finished or ended by an exception, or set by the caller: a run with the same files, on the same world, and with
the same time limit ends in the same way, leaves the same result file, plots and generator, and, if it returns, the same
object. -/
theorem C141_reuse (o : Ops T σ W μ V) (E : Env T σ W V) (bf mf cf out : String) (fuel : ℕ) (b b' : Bm T) (w : W)
    (h : b.timeout = b'.timeout) : seen (run o E bf mf cf out fuel b w) = seen (run o E bf mf cf out fuel b' w) := by
  unfold run
  dsimp only
  have h1 : (do loadConfig (← E.read cf) { b with outputFile := out }) =
      (do loadConfig (← E.read cf) { b' with outputFile := out }).map (keep { b with outputFile := out }) :=
    bind_map _ _ fun y => loadConfig_keep y _ _
  rw [h1]
  cases hc : (do loadConfig (← E.read cf) { b' with outputFile := out }) with
  | error e => rfl
  | ok c =>
    have hk : c.timeout = b.timeout ∧ c.outputFile = out := by
      cases hr : E.read cf with
      | error e => simp [hr, bind, Except.bind] at hc
      | ok y =>
        simp only [hr, bind, Except.bind] at hc
        exact ⟨(loadConfig_kept hc).1.trans h.symm, (loadConfig_kept hc).2⟩
    simp only [Except.map]
    rw [loadBenchmark_forgets E bf { b with outputFile := out } c hk.1.symm hk.2.symm]
    cases hl : loadBenchmark E bf c with
    | error e => rfl
    | ok b1 =>
      simp only [Except.map, keepMethods]
      split
      · rfl
      · cases entries E mf with
        | error e => rfl
        | ok ms =>
          simp only []
          have he : evaluations { b1 with methods := b.methods, debugPlotSavePath :=
              if b1.debugPlotSave then b1.debugPlotSavePath else none } = evaluations { b1 with debugPlotSavePath :=
              if b1.debugPlotSave then b1.debugPlotSavePath else none } := rfl
          rw [he]
          cases Bench.run o ⟨b1.metrics, b1.rseed, b1.nExperiments, b1.timeout⟩ fuel (ms.map (method E))
            (evaluations { b1 with debugPlotSavePath := if b1.debugPlotSave then b1.debugPlotSavePath else none }) w <;> rfl

/-! ### Examples: two objects, one of them with the attributes of an earlier run -/

/-- Files: one target with five samples, and one method; the configuration asks for one repetition and plots. -/
def demoFile : String → Option Yaml
  | "b" => some (.map [("targets", .list [.map [("name", .str "g"), ("type", .str "G"), ("params", .map []),
      ("batch_size", .int 2), ("nsamples", .int 5), ("nsamples_eval", .int 10), ("tags", .list [])]])])
  | "m" => some (.map [("methods", .list [.map [("name", .str "mh"), ("type", .str "M"), ("debug", .bool true),
      ("params", .map [])]])])
  | "c" => some (.map [("nreps", .int 1), ("rseed", .int 0), ("metrics", .list [.str "JSD"]),
      ("debug", .map [("text", .bool true), ("plot", .map [("show", .bool false), ("save", .bool true), ("path", .str "p/")])]),
      ("output", .map [("make_plots", .bool true), ("plots_path", .str "r/"), ("plots_dpi", .int 1200)])])
  | _ => none

/-- A method that delivers at once what it is asked for; its state is the number of samples. -/
def demoMethod : Method Unit ℕ Unit ℕ where
  new _ w := (.ok 0, w)
  reset _ w := (none, 0, w)
  sample _ n _ _ w := (.ok (n + 3), n + 3, w)
  report n := .ok ⟨1, "mh", 1, n, n, n⟩

def demoEnv : Env Unit ℕ Unit ℕ where
  file := demoFile
  target _ _ := .ok ((), 1)
  method _ _ := demoMethod

def demoOps : Ops Unit ℕ Unit ℕ ℕ where
  seed _ w := w
  new _ w := (0, w)
  reset _ m w := (m, w)
  pre _ m w := (m, w)
  post _ m w := (m, w)
  compute _ _ m s w := (.ok s, m, s, w)

/-- An object with the attributes left by other runs. -/
def usedObject : Bm Unit :=
  { Bm.new Unit with targets := [((), "old"), ((), "older")], ndims := [3, 4], methods := ["x"], nsamples := [7],
                     metrics := ["KLD"], nExperiments := 9, rseed := -1 }

/-- The run of the used object returns and writes one line, for the target of its files. -/
example : ∃ r, run demoOps demoEnv "b" "m" "c" "out" 10 usedObject () = .done r ∧
    r.obj.targets = [((), "g")] ∧ r.plots.length = 1 ∧
    r.file.map (fun f => f.2.map fun l => (l.dims, l.nsamples, l.values, l.target)) = some [(1, 5, [("JSD", 5)], "g")] := by
  have hc : (do loadConfig (← demoEnv.read "c") { usedObject with outputFile := "out" }) =
      .ok { usedObject with outputFile := "out", metrics := ["JSD"], debugPlotSave := true, debugPlotSavePath := some "p/",
                            nExperiments := 1, rseed := 0, generatePlots := true, plotsPath := "r/" } := rfl
  have hb : loadBenchmark demoEnv "b" { usedObject with
      outputFile := "out", metrics := ["JSD"], debugPlotSave := true, debugPlotSavePath := some "p/",
      nExperiments := 1, rseed := 0, generatePlots := true, plotsPath := "r/" } = .ok { usedObject with
      outputFile := "out", metrics := ["JSD"], debugPlotSave := true, debugPlotSavePath := some "p/",
      nExperiments := 1, rseed := 0, generatePlots := true, plotsPath := "r/", targets := [((), "g")], ndims := [1],
      batchSizes := [2], nsamples := [5], evalSampl := [10] } := rfl
  have hm : entries demoEnv "m" = .ok [.map [("name", .str "mh"), ("type", .str "M"), ("debug", .bool true),
      ("params", .map [])]] := rfl
  have ht : ¬ ((18000 : ℝ) < 0) := by norm_num
  unfold run
  simp only [hc, hb, hm]
  simp [evaluations, Bench.run, runTargets, runMethods, evaluate, forN, repetition, loop, iter, each, newMetrics,
    loadMethods, method, nameOf, Except.map, Yaml.get, Yaml.asStr, demoEnv, demoMethod, demoOps, computeAll, dictSet, Kind.ofConfig, Kind.name,
    finish, plots, usedObject, Bm.new, bind, Except.bind, ht, List.lookup]

/-! ### C142: the documented way of running a benchmark -/

/-- The benchmark file of README.md: the parameters of a target are in a dictionary under its name. -/
def readmeBenchmark : Yaml :=
  .map [("targets", .list [
    .map [("normal", .map [("type", .str "Normal"), ("params", .map [("loc", .int 0), ("scale", .int 1)]),
      ("tags", .list [.str "low_kurtosis", .str "low_skew", .str "unimodal"]),
      ("evaluation", .map [("batch_size", .int 2), ("nsamples", .int 1000), ("nsamples_eval", .int 2000)])])],
    .map [("gmm", .map [("type", .str "GMM"), ("params", .map [("loc", .list [.int 0, .other]), ("scale", .list [.other, .other]),
      ("weight", .list [.other, .other])]),
      ("tags", .list [.str "high_kurtosis", .str "low_skew", .str "multimodal", .str "close_modes"]),
      ("evaluation", .map [("batch_size", .int 2), ("nsamples", .int 1000), ("nsamples_eval", .int 2000)])])]])]

/-- The methods of README.md. -/
def readmeMethods : List Yaml :=
  [.map [("name", .str "rejection"), ("type", .str "CRejectionSampling"),
    ("params", .map [("scaling", .int 1), ("proposal", .str "uniform"), ("kde_bw", .other)])],
   .map [("name", .str "mcmc_mh"), ("type", .str "CMetropolisHastings"),
    ("params", .map [("n_burnin", .int 10), ("n_steps", .int 2), ("kde_bw", .other), ("proposal_sigma", .other)])]]

/-- The configuration file of README.md. -/
def readmeConfig : Yaml :=
  .map [("nreps", .int 3), ("rseed", .int 0), ("metrics", .list [.str "KLD", .str "MEM", .str "T"]),
    ("display", .map [("value", .bool true), ("display_path", .str "results/"),
      ("animation", .map [("value", .bool true), ("fps", .int 1), ("animation_path", .str "results/anim/")])]),
    ("output", .map [("file", .str "results/results.txt"), ("make_plots", .bool true), ("plots_path", .str "results/"),
      ("plots_dpi", .int 1200)])]

/-- **C142_refuted** The documented command line names three files: the script runs its default files instead, whatever the
three are. The documented files are not accepted either: the configuration and the benchmark file raise a KeyError in every
object and environment, and so does every method of the methods file, if its constructor does not raise. -/
theorem C142_refuted :
    (∀ dir script b m c : String, commandLine dir [script, b, m, c] = commandLine dir [script]) ∧
    (∀ b : Bm T, loadConfig readmeConfig b = .error .key) ∧
    (∀ (E : Env T σ W V) (f : String) (b : Bm T), E.file f = some readmeBenchmark → loadBenchmark E f b = .error .key) ∧
    (∀ (E : Env T σ W V), ∀ y ∈ readmeMethods, ∀ (t : T) (w : W), ∃ e, ((method E y).new t w).1 = .error e ∧
      (e = .key ∨ ∃ type ps, ((E.method type ps).new t w).1 = .error e)) := by
  refine ⟨fun _ _ _ _ _ => rfl, fun b => rfl, fun E f b h => ?_, fun E y hy t w => ?_⟩
  · unfold loadBenchmark Env.read
    rw [h]
    rfl
  · simp only [readmeMethods, List.mem_cons, List.not_mem_nil, or_false] at hy
    rcases hy with rfl | rfl
    · cases hn : (E.method (.str "CRejectionSampling") [("scaling", .int 1), ("proposal", .str "uniform"),
        ("kde_bw", .other)]).new t w with
      | mk r w' =>
        cases r with
        | error e =>
          refine ⟨e, ?_, Or.inr ⟨_, _, by rw [hn]⟩⟩
          simp [method, Yaml.get, List.lookup, hn]
        | ok s =>
          refine ⟨.key, ?_, Or.inl rfl⟩
          simp [method, Yaml.get, Yaml.asStr, List.lookup, hn, bind, Except.bind]
    · cases hn : (E.method (.str "CMetropolisHastings") [("n_burnin", .int 10), ("n_steps", .int 2), ("kde_bw", .other),
        ("proposal_sigma", .other)]).new t w with
      | mk r w' =>
        cases r with
        | error e =>
          refine ⟨e, ?_, Or.inr ⟨_, _, by rw [hn]⟩⟩
          simp [method, Yaml.get, List.lookup, hn]
        | ok s =>
          refine ⟨.key, ?_, Or.inl rfl⟩
          simp [method, Yaml.get, Yaml.asStr, List.lookup, hn, bind, Except.bind]

/-- An entry of a benchmark file in the format of the shipped files: the six keys have the given values; other keys and
their order do not matter. -/
structure EntryOf (y : Yaml) (type params : Yaml) (name : String) (nsamples : ℤ) (eval batch : ℕ) : Prop where
  type : y.get "type" = .ok type
  params : y.get "params" = .ok params
  name : y.get "name" = .ok (.str name)
  nsamples : y.get "nsamples" = .ok (.int nsamples)
  eval : y.get "nsamples_eval" = .ok (.int eval)
  batch : y.get "batch_size" = .ok (.int batch)

theorem loadTarget_entry (E : Env T σ W V) {y type params : Yaml} {name : String} {n : ℤ} {ev batch : ℕ}
    (h : EntryOf y type params name n ev batch) {obj : T} {dims : ℕ} (ht : E.target type params = .ok (obj, dims)) (b : Bm T) :
    loadTarget E b y = .ok { b with
      nsamples := b.nsamples ++ [n], evalSampl := b.evalSampl ++ [ev], batchSizes := b.batchSizes ++ [batch],
      targets := b.targets ++ [(obj, name)], ndims := b.ndims ++ [dims] } := by
  unfold loadTarget
  simp only [h.type, h.params, h.name, h.nsamples, h.eval, h.batch, ht, bind, Except.bind, Yaml.asInt, Yaml.asStr]
  rfl

/-- The five lists of parameters have the same length. -/
def Even (b : Bm T) : Prop :=
  b.ndims.length = b.targets.length ∧ b.nsamples.length = b.targets.length ∧ b.evalSampl.length = b.targets.length ∧
    b.batchSizes.length = b.targets.length

theorem evaluations_snoc (b : Bm T) (h : Even b) (n : ℤ) (ev batch dims : ℕ) (obj : T) (name : String) :
    evaluations { b with
      nsamples := b.nsamples ++ [n], evalSampl := b.evalSampl ++ [ev], batchSizes := b.batchSizes ++ [batch],
      targets := b.targets ++ [(obj, name)], ndims := b.ndims ++ [dims] } = evaluations b ++ [⟨obj, dims, name, n, batch⟩] := by
  obtain ⟨h1, h2, h3, h4⟩ := h
  unfold evaluations
  simp only
  rw [List.zip_append h1.symm, List.zip_append (by rw [h2, h3]), List.zip_append (by rw [List.length_zip, h2, h3, h4, min_self]),
    List.zip_append (by simp [h1, h2, h3, h4]), List.map_append]
  rfl

theorem Even.snoc {b : Bm T} (h : Even b) (n : ℤ) (ev batch dims : ℕ) (obj : T) (name : String) :
    Even { b with
      nsamples := b.nsamples ++ [n], evalSampl := b.evalSampl ++ [ev], batchSizes := b.batchSizes ++ [batch],
      targets := b.targets ++ [(obj, name)], ndims := b.ndims ++ [dims] } := by
  obtain ⟨h1, h2, h3, h4⟩ := h
  exact ⟨by simp [h1], by simp [h2], by simp [h3], by simp [h4]⟩

theorem loadTargets_entries (E : Env T σ W V) : ∀ (l : List (Yaml × Target T)) (b : Bm T), Even b →
    (∀ e ∈ l, ∃ type params ev, EntryOf e.1 type params e.2.name e.2.maxSamples ev e.2.batch ∧
      E.target type params = .ok (e.2.obj, e.2.dims)) →
    ∃ b', (l.map Prod.fst).foldlM (loadTarget E) b = .ok b' ∧ Even b' ∧ b'.evaluations = b.evaluations ++ l.map Prod.snd
  | [], b, hb, _ => ⟨b, rfl, hb, by simp⟩
  | (y, t) :: l, b, hb, h => by
    obtain ⟨type, params, ev, h1, h2⟩ := h (y, t) (by simp)
    obtain ⟨b', q1, q2, q3⟩ := loadTargets_entries E l _ (hb.snoc t.maxSamples ev t.batch t.dims t.obj t.name)
      fun e he => h e (by simp [he])
    refine ⟨b', ?_, q2, ?_⟩
    · rw [List.map_cons, List.foldlM_cons, loadTarget_entry E h1 h2]
      exact q1
    · rw [q3, evaluations_snoc b hb, List.append_assoc]
      rfl

theorem bind_eq_ok {α β : Type} {x : Except PyErr α} {f : α → Except PyErr β} {b : β} :
    x >>= f = .ok b ↔ ∃ a, x = .ok a ∧ f a = .ok b := by
  cases x with
  | error => exact ⟨fun h => (by cases h), fun ⟨_, h, _⟩ => (by cases h)⟩
  | ok a => exact ⟨fun h => ⟨a, rfl, h⟩, fun ⟨_, h, h'⟩ => by cases h; exact h'⟩

theorem asStr_ok {y : Yaml} {s : String} : y.asStr = .ok s ↔ y = .str s := by
  cases y <;> simp [Yaml.asStr]

theorem asBool_ok {y : Yaml} {s : Bool} : y.asBool = .ok s ↔ y = .bool s := by
  cases y <;> simp [Yaml.asBool]

theorem asInt_ok {y : Yaml} {s : ℤ} : y.asInt = .ok s ↔ y = .int s := by
  cases y <;> simp [Yaml.asInt]

theorem asList_ok {y : Yaml} {s : List Yaml} : y.asList = .ok s ↔ y = .list s := by
  cases y <;> simp [Yaml.asList]

theorem mapM_asStr_ok : ∀ {l : List Yaml} {s : List String}, l.mapM Yaml.asStr = .ok s ↔ l = s.map .str
  | [], s => by
    rw [List.mapM_nil]
    cases s with
    | nil => exact ⟨fun _ => rfl, fun _ => rfl⟩
    | cons => exact ⟨fun h => (by cases h), fun h => (by cases h)⟩
  | y :: l, s => by
    rw [List.mapM_cons, bind_eq_ok]
    constructor
    · rintro ⟨a, h1, h2⟩
      obtain ⟨s', h3, h4⟩ := bind_eq_ok.1 h2
      cases h4
      rw [asStr_ok.1 h1, mapM_asStr_ok.1 h3]
      rfl
    · intro h
      cases s with
      | nil => cases h
      | cons a s =>
        rw [List.map_cons, List.cons.injEq] at h
        exact ⟨a, asStr_ok.2 h.1, bind_eq_ok.2 ⟨s, mapM_asStr_ok.2 h.2, rfl⟩⟩

/-- **C142_config** The configurations that are accepted: the file must name the metrics, the number of repetitions, the seed,
what is shown and saved during the run and where, whether to make plots, where and in which resolution. The object takes over
these values and no others. -/
theorem C142_config (y : Yaml) (b c : Bm T) : loadConfig y b = .ok c ↔
    ∃ (metrics : List String) (debug plot out dpi : Yaml) (text shown save make : Bool) (path plotsPath : String) (nreps rseed : ℤ),
      y.get "metrics" = .ok (.list (metrics.map .str)) ∧ y.get "debug" = .ok debug ∧ debug.get "text" = .ok (.bool text) ∧
      debug.get "plot" = .ok plot ∧ plot.get "show" = .ok (.bool shown) ∧ plot.get "save" = .ok (.bool save) ∧
      plot.get "path" = .ok (.str path) ∧ y.get "nreps" = .ok (.int nreps) ∧ y.get "rseed" = .ok (.int rseed) ∧
      y.get "output" = .ok out ∧ out.get "make_plots" = .ok (.bool make) ∧ out.get "plots_path" = .ok (.str plotsPath) ∧
      out.get "plots_dpi" = .ok dpi ∧
      c = { b with metrics := metrics, debugText := text, debugPlot := shown, debugPlotSave := save,
                   debugPlotSavePath := some path, nExperiments := nreps.toNat, rseed := rseed, generatePlots := make,
                   plotsPath := plotsPath } := by
  unfold loadConfig
  dsimp only
  simp only [bind_eq_ok, asStr_ok, asBool_ok, asInt_ok, asList_ok, mapM_asStr_ok]
  constructor
  · rintro ⟨_, h1, _, rfl, metrics, rfl, debug, h2, _, h3, text, rfl, plot, h4, _, h5, shown, rfl, _, h6, save, rfl, _, h7, path,
      rfl, _, h8, nreps, rfl, _, h9, rseed, rfl, out, h10, _, h11, make, rfl, _, h12, pp, rfl, dpi, h13, h14⟩
    cases h14
    exact ⟨metrics, debug, plot, out, dpi, text, shown, save, make, path, pp, nreps, rseed, h1, h2, h3, h4, h5, h6, h7, h8, h9,
      h10, h11, h12, h13, rfl⟩
  · rintro ⟨metrics, debug, plot, out, dpi, text, shown, save, make, path, pp, nreps, rseed, h1, h2, h3, h4, h5, h6, h7, h8, h9,
      h10, h11, h12, h13, rfl⟩
    exact ⟨_, h1, _, rfl, metrics, rfl, debug, h2, _, h3, text, rfl, plot, h4, _, h5, shown, rfl, _, h6, save, rfl, _, h7, path,
      rfl, _, h8, nreps, rfl, _, h9, rseed, rfl, out, h10, _, h11, make, rfl, _, h12, pp, rfl, dpi, h13, rfl⟩

/-- The configuration of the example is accepted. -/
example : ∃ y c, demoEnv.file "c" = some y ∧ loadConfig y (Bm.new Unit) = .ok c ∧ c.metrics = ["JSD"] ∧ c.plotsPath = "r/" :=
  ⟨_, _, rfl, rfl, rfl, rfl⟩

/-- **C142_partial** With four file names on the command line these are the files used. A benchmark file in the format of the
shipped files, with any number of targets, is loaded by every object, and the evaluations of the run are those of the file: one
per target, in the order of the file, with the dimensions of the target and the name, number of samples and batch size of its
entry. -/
theorem C142_partial (dir script bf mf cf out : String) (E : Env T σ W V) (l : List (Yaml × Target T)) (y : Yaml) (b : Bm T)
    (hf : E.file bf = some y) (hy : y.get "targets" = .ok (.list (l.map Prod.fst)))
    (h : ∀ e ∈ l, ∃ type params ev, EntryOf e.1 type params e.2.name e.2.maxSamples ev e.2.batch ∧
      E.target type params = .ok (e.2.obj, e.2.dims)) :
    commandLine dir [script, bf, mf, cf, out] = (bf, mf, cf, out) ∧
    ∃ b', loadBenchmark E bf b = .ok b' ∧ b'.evaluations = l.map Prod.snd := by
  refine ⟨rfl, ?_⟩
  obtain ⟨b', q1, _, q3⟩ := loadTargets_entries E l
    { b with targets := [], ndims := [], batchSizes := [], evalSampl := [], nsamples := [] } ⟨rfl, rfl, rfl, rfl⟩ h
  refine ⟨b', ?_, by rw [q3]; rfl⟩
  unfold loadBenchmark Env.read
  simp only [hf, hy, bind, Except.bind, Yaml.asList]
  exact q1

/-- The hypotheses of `C142_partial` hold for the file of the example above. -/
example : ∃ (y : Yaml) (l : List (Yaml × Target Unit)), demoEnv.file "b" = some y ∧ l ≠ [] ∧
    y.get "targets" = .ok (.list (l.map Prod.fst)) ∧
    ∀ e ∈ l, ∃ type params ev, EntryOf e.1 type params e.2.name e.2.maxSamples ev e.2.batch ∧
      demoEnv.target type params = .ok (e.2.obj, e.2.dims) := by
  refine ⟨_, [(_, ⟨(), 1, "g", 5, 2⟩)], rfl, by simp, rfl, ?_⟩
  intro e he
  simp only [List.mem_singleton] at he
  subst he
  exact ⟨_, _, 10, ⟨rfl, rfl, rfl, rfl, rfl, rfl⟩, rfl⟩

end Bm
end Bench
end Verif
