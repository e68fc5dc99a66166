import Verif.Props.Config

/-!
# C156: a run that cannot start leaves the earlier results alone

The component `file` of what a run leaves behind is `none` as long as the result file was not touched; otherwise the file holds
the header and rows given, and what was in it before is gone.
-/

set_option linter.unusedSectionVars false
set_option autoImplicit false

namespace Verif
namespace Bench
namespace Bm

variable {T : Type} {σ W μ V : Type*}

/-- The run ends with the exception `e`, before anything was written or plotted. -/
def StopsClean (e : PyErr) (r : Out (Result T W V)) : Prop := ∃ x, r = .raised e x ∧ x.file = none ∧ x.plots = []

/-- **C156** without the methods file. For every object, environment and state of the generator: if there is no configuration file,
or if there is one that is accepted but no benchmark file, the run raises OSError; if the benchmark file lists no targets, it raises
AssertionError; if a target of the benchmark file cannot be constructed, it raises ValueError. In all these cases the result file is
as it was. Missing is the methods file (`C156_refuted`). -/
theorem C156_partial (o : Ops T σ W μ V) (E : Env T σ W V) (bf mf cf out : String) (fuel : ℕ) (b : Bm T) (w : W) :
    (E.file cf = none → StopsClean .os (run o E bf mf cf out fuel b w)) ∧
    (∀ y c, E.file cf = some y → loadConfig y { b with outputFile := out } = .ok c →
      (E.file bf = none → StopsClean .os (run o E bf mf cf out fuel b w)) ∧
      (∀ z, E.file bf = some z → z.get "targets" = .ok (.list []) → StopsClean .assertion (run o E bf mf cf out fuel b w)) ∧
      ∀ z t ts type params name n ev batch e, E.file bf = some z → z.get "targets" = .ok (.list (t :: ts)) →
        EntryOf t type params name n ev batch → E.target type params = .error e →
        StopsClean .value (run o E bf mf cf out fuel b w)) := by
  refine ⟨fun h => ?_, fun y c hy hc => ⟨fun h => ?_, fun z hz ht => ?_, fun z t ts type params name n ev batch e hz ht he hx => ?_⟩⟩
  · refine ⟨⟨{ b with outputFile := out }, w, none, []⟩, ?_, rfl, rfl⟩
    simp [run, Env.read, h, bind, Except.bind]
  · refine ⟨⟨c, w, none, []⟩, ?_, rfl, rfl⟩
    simp [run, Env.read, hy, hc, h, loadBenchmark, bind, Except.bind]
  · refine ⟨⟨{ c with targets := [], ndims := [], batchSizes := [], evalSampl := [], nsamples := [] }, w, none, []⟩, ?_, rfl, rfl⟩
    simp [run, Env.read, hy, hc, hz, ht, loadBenchmark, Yaml.asList, bind, Except.bind, pure, Except.pure]
  · refine ⟨⟨c, w, none, []⟩, ?_, rfl, rfl⟩
    simp [run, Env.read, hy, hc, hz, ht, loadBenchmark, loadTarget, Yaml.asList, Yaml.asInt, Yaml.asNat, he.type, he.params, he.nsamples,
      he.eval, he.batch, hx, bind, Except.bind]

/-- **C156_refuted** With accepted configuration and benchmark files and a methods file that does not exist, every run of every object
raises OSError, and has replaced the content of the result file by a header without rows. -/
theorem C156_refuted (fuel : ℕ) (b : Bm Unit) :
    demoEnv.file "nowhere" = none ∧
    ∃ x head, run demoOps demoEnv "b" "nowhere" "c" "out" fuel b () = .raised .os x ∧ x.file = some (head, []) := by
  refine ⟨rfl, ?_⟩
  cases hr : run demoOps demoEnv "b" "nowhere" "c" "out" fuel b () with
  | done x => cases hr
  | running x => cases hr
  | raised e x => cases hr; exact ⟨_, _, rfl, rfl⟩

/-- The hypotheses of `C156_partial` for the files of the example: the configuration is accepted by every object, and there is no
benchmark file called "nowhere". -/
example (b : Bm Unit) : (∃ y c, demoEnv.file "c" = some y ∧ loadConfig y { b with outputFile := "out" } = .ok c) ∧
    demoEnv.file "nowhere" = none ∧ StopsClean .os (run demoOps demoEnv "nowhere" "m" "c" "out" 3 b ()) :=
  ⟨⟨_, _, rfl, rfl⟩, rfl, ((C156_partial demoOps demoEnv "nowhere" "m" "c" "out" 3 b ()).2 _ _ rfl rfl).1 rfl⟩

end Bm
end Bench
end Verif
