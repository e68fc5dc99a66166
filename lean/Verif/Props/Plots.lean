import Verif.Model.Plots
import Verif.Props.Config
import Verif.Props.ResultText

/-!
# C143, C144: every plot shows one target; plots can be made again from the result file
-/

set_option linter.unusedSectionVars false
set_option autoImplicit false

namespace Verif
namespace Bench

variable {T : Type} {σ W μ V : Type*} {o : Ops T σ W μ V} {m : Method T σ W V} {t : Target T}

/-! ### The rows written by an evaluation -/

/-- The row is one of the method `m` on the target `t`. -/
def RowOf (m : Method T σ W V) (t : Target T) (row : Row V) : Prop :=
  row.dims = t.dims ∧ row.target = t.name ∧ ∃ s, m.report s = .ok row.report

/-- All lines so far are of that form. -/
def AllOf (m : Method T σ W V) (t : Target T) (r : Rep σ W μ V) : Prop := ∀ row ∈ r.lines, RowOf m t row

theorem iter_of {maxTime : ℝ} {r : Rep σ W μ V} (h : AllOf m t r) :
    match iter o m t maxTime r with
    | .raised _ r' | .next r' | .brk r' => AllOf m t r' := by
  unfold iter
  dsimp only
  generalize m.sample t.obj r.n (maxTime - r.samplingTime) r.obj (each o.pre r.ms r.w).2 = sm
  obtain ⟨x, s, w⟩ := sm
  cases x with
  | error e => exact h
  | ok k =>
    dsimp only
    generalize each o.post (each o.pre r.ms r.w).1 w = q
    generalize computeAll o t.obj q.1 [] s q.2 = cm
    obtain ⟨y, ms, s', w'⟩ := cm
    cases y with
    | error e => exact h
    | ok d =>
      dsimp only
      cases hrep : m.report s' with
      | error e => exact h
      | ok rep =>
        dsimp only
        have hall : ∀ r1 : Rep σ W μ V, r1.lines = r.lines ++ [⟨t.dims, k, d, rep, t.name⟩] → AllOf m t r1 := by
          intro r1 h1 row hrow
          rw [h1, List.mem_append, List.mem_singleton] at hrow
          rcases hrow with hrow | rfl
          · exact h row hrow
          · exact ⟨rfl, rfl, s', hrep⟩
        split
        · rename_i e
          split at e <;> cases e
        · rename_i r1 e
          refine hall r1 ?_
          split at e <;> cases e; rfl
        · rename_i r1 e
          refine hall r1 ?_
          split at e <;> cases e; rfl

theorem loop_of {maxTime : ℝ} (fuel : ℕ) : ∀ {r : Rep σ W μ V}, AllOf m t r →
    (loop o m t maxTime fuel r).Sat (AllOf m t) (AllOf m t) (AllOf m t) := by
  induction fuel with
  | zero =>
    intro r h
    unfold loop
    split <;> exact h
  | succ n ih =>
    intro r h
    unfold loop
    split
    · have hi := iter_of (o := o) (maxTime := maxTime) h
      generalize iter o m t maxTime r = st at hi
      cases st with
      | next r' => exact ih hi
      | brk r' => exact hi
      | raised e r' => exact hi
    · exact h

theorem evaluate_of {c : Config} {fuel : ℕ} {s : σ} {w : W} : AllOf m t (evaluate o c m t fuel s w).state := by
  unfold evaluate
  dsimp only
  refine Out.Sat.state (I := AllOf m t) (forN_inv (fun _ r => AllOf m t r) (AllOf m t) (AllOf m t) c.nReps ?_ _
    (by intro x hx; cases hx))
  rintro i - r h
  unfold repetition
  generalize m.reset r.obj r.w = rs
  obtain ⟨x, s, w⟩ := rs
  cases x with
  | some e => exact h
  | none =>
    dsimp only
    have hL := loop_of (o := o) (m := m) (t := t) (maxTime := c.maxTime) fuel
      (r := { r with obj := s, w := (each o.reset r.ms w).2, ms := (each o.reset r.ms w).1, acc := 0, n := t.batch, samplingTime := 0 })
      h
    generalize loop o m t c.maxTime fuel _ = L at hL
    cases L with
    | running r' => exact hL
    | raised e r' => exact hL
    | done r' =>
      dsimp only
      unfold finish
      split
      · exact hL
      · split <;> exact hL

/-- The rows are what some completed evaluation of `m` on `t` wrote. -/
def Wrote (o : Ops T σ W μ V) (c : Config) (fuel : ℕ) (m : Method T σ W V) (t : Target T) (rows : List (Row V)) : Prop :=
  ∃ s w r, evaluate o c m t fuel s w = .done r ∧ r.lines = rows

theorem Wrote.of {c : Config} {fuel : ℕ} {rows : List (Row V)} (h : Wrote o c fuel m t rows) : ∀ row ∈ rows, RowOf m t row := by
  obtain ⟨s, w, r, h1, rfl⟩ := h
  have := evaluate_of (o := o) (m := m) (t := t) (c := c) (fuel := fuel) (s := s) (w := w)
  rw [h1] at this
  exact this

/-- The evaluations on one target: one block of rows for every method. -/
theorem runMethods_blocks {c : Config} {fuel : ℕ} : ∀ (ms : List (Method T σ W V × σ)) (p p' : W × List (Row V)),
    runMethods o c fuel t ms p = .done p' →
    ∃ B : List (List (Row V)), p'.2 = p.2 ++ B.flatten ∧ List.Forall₂ (fun m b => Wrote o c fuel m t b) (ms.map Prod.fst) B
  | [], p, p', h => by
    unfold runMethods at h
    cases h
    exact ⟨[], by simp, .nil⟩
  | (m, s) :: ms, p, p', h => by
    unfold runMethods at h
    split at h
    · cases h
    · rename_i s' w' hr
      split at h
      · rename_i r he
        obtain ⟨B, h1, h2⟩ := runMethods_blocks ms _ _ h
        refine ⟨r.lines :: B, ?_, .cons ⟨s', w', r, he, rfl⟩ h2⟩
        rw [h1, List.flatten_cons, List.append_assoc]
      · cases h
      · cases h

theorem loadMethods_same {ms : List (Method T σ W V)} : ∀ {l : List (Method T σ W V × σ)} {obj : T} {w w' : W},
    loadMethods obj ms w = (.ok l, w') → l.map Prod.fst = ms := by
  induction ms with
  | nil => intro l obj w w' h; unfold loadMethods at h; cases h; rfl
  | cons m ms ih =>
    intro l obj w w' h
    unfold loadMethods at h
    split at h
    · cases h
    · split at h
      · cases h
      · rename_i h2
        cases h
        rw [List.map_cons, ih h2]

/-- A run: for every target one block of rows for every method. -/
theorem runTargets_blocks {c : Config} {fuel : ℕ} {ms : List (Method T σ W V)} : ∀ (ts : List (Target T)) (p p' : W × List (Row V)),
    runTargets o c fuel ms ts p = .done p' →
    ∃ B : List (List (List (Row V))), p'.2 = p.2 ++ (B.map List.flatten).flatten ∧
      List.Forall₂ (fun t C => List.Forall₂ (fun m b => Wrote o c fuel m t b) ms C) ts B
  | [], p, p', h => by
    unfold runTargets at h
    cases h
    exact ⟨[], by simp, .nil⟩
  | t :: ts, p, p', h => by
    unfold runTargets at h
    split at h
    · cases h
    · rename_i l w hl
      split at h
      · rename_i q hq
        obtain ⟨C, h1, h2⟩ := runMethods_blocks _ _ _ hq
        obtain ⟨B, h3, h4⟩ := runTargets_blocks ts _ _ h
        rw [loadMethods_same hl] at h2
        refine ⟨C :: B, ?_, .cons h2 h4⟩
        rw [h3, h1, List.map_cons, List.flatten_cons, List.append_assoc]
      · cases h
      · cases h

/-- Picking one block out of a list of blocks by a test that the rows of the other blocks fail. -/
theorem filter_blocks {α β : Type*} {R : α → List β → Prop} {q : β → Bool} : ∀ {l : List α} {B : List (List β)},
    List.Forall₂ R l B → ∀ {a : α}, a ∈ l → l.Nodup → (∀ b, R a b → ∀ x ∈ b, q x = true) →
    (∀ a' ∈ l, a' ≠ a → ∀ b, R a' b → ∀ x ∈ b, q x = false) → ∃ b, R a b ∧ B.flatten.filter q = b
  | _, _, .nil, a, ha, _, _, _ => absurd ha List.not_mem_nil
  | a0 :: l, b0 :: B, .cons h0 h, a, ha, hn, h1, h2 => by
    rw [List.nodup_cons] at hn
    rw [List.flatten_cons, List.filter_append]
    by_cases e : a0 = a
    · subst e
      have hrest : B.flatten.filter q = [] := by
        rw [List.filter_eq_nil_iff]
        intro x hx
        rw [List.mem_flatten] at hx
        obtain ⟨b, hb, hx⟩ := hx
        have : ∃ a' ∈ l, R a' b := by
          clear h2 hn h1 h0 ha
          induction h with
          | nil => cases hb
          | cons g _ ih =>
            rcases List.mem_cons.1 hb with rfl | hb
            · exact ⟨_, by simp, g⟩
            · obtain ⟨a', q1, q2⟩ := ih hb
              exact ⟨a', List.mem_cons_of_mem _ q1, q2⟩
        obtain ⟨a', q1, q2⟩ := this
        rw [h2 a' (List.mem_cons_of_mem _ q1) (by rintro rfl; exact hn.1 q1) b q2 x hx]
        simp
      refine ⟨b0, h0, ?_⟩
      rw [hrest, List.append_nil, List.filter_eq_self]
      exact h1 b0 h0
    · have hfirst : b0.filter q = [] := by
        rw [List.filter_eq_nil_iff]
        intro x hx
        rw [h2 a0 (by simp) e b0 h0 x hx]
        simp
      rw [hfirst, List.nil_append]
      exact filter_blocks h ((List.mem_cons.1 ha).resolve_left fun e' => e e'.symm) hn.2 h1
        fun a' ha' => h2 a' (List.mem_cons_of_mem _ ha')

namespace Bm

/-! ### Loading -/

theorem bind_ok {α β : Type} {x : Except PyErr α} {f : α → Except PyErr β} {b : β} (h : x >>= f = .ok b) :
    ∃ a, x = .ok a ∧ f a = .ok b := by
  cases x with
  | error => cases h
  | ok a => exact ⟨a, rfl, h⟩

theorem loadTarget_ok {E : Env T σ W V} {b c : Bm T} {y : Yaml} (h : loadTarget E b y = .ok c) :
    ∃ (n : ℤ) (ev batch dims : ℕ) (obj : T) (name : String), c = { b with
      nsamples := b.nsamples ++ [n], evalSampl := b.evalSampl ++ [ev], batchSizes := b.batchSizes ++ [batch],
      targets := b.targets ++ [(obj, name)], ndims := b.ndims ++ [dims] } := by
  unfold loadTarget at h
  dsimp only at h
  obtain ⟨_, _, h⟩ := bind_ok h
  obtain ⟨n, _, h⟩ := bind_ok h
  obtain ⟨_, _, h⟩ := bind_ok h
  obtain ⟨ev, _, h⟩ := bind_ok h
  obtain ⟨_, _, h⟩ := bind_ok h
  obtain ⟨batch, _, h⟩ := bind_ok h
  obtain ⟨type, _, h⟩ := bind_ok h
  obtain ⟨params, _, h⟩ := bind_ok h
  split at h
  · cases h
  · rename_i obj dims _
    obtain ⟨_, _, h⟩ := bind_ok h
    obtain ⟨name, _, h⟩ := bind_ok h
    cases h
    exact ⟨n, ev, batch, dims, obj, name, rfl⟩

theorem loadTargets_even {E : Env T σ W V} : ∀ {ts : List Yaml} {b c : Bm T}, Even b → ts.foldlM (loadTarget E) b = .ok c → Even c
  | [], b, c, hb, h => by cases h; exact hb
  | y :: ts, b, c, hb, h => by
    rw [List.foldlM_cons] at h
    obtain ⟨b1, h1, h⟩ := bind_ok h
    obtain ⟨n, ev, batch, dims, obj, name, rfl⟩ := loadTarget_ok h1
    exact loadTargets_even (hb.snoc n ev batch dims obj name) h

theorem loadBenchmark_even {E : Env T σ W V} {f : String} {b c : Bm T} (h : loadBenchmark E f b = .ok c) : Even c := by
  unfold loadBenchmark at h
  dsimp only at h
  obtain ⟨_, _, h⟩ := bind_ok h
  obtain ⟨_, _, h⟩ := bind_ok h
  obtain ⟨_, _, h⟩ := bind_ok h
  exact loadTargets_even ⟨rfl, rfl, rfl, rfl⟩ h

/-- The evaluations have the dimensions and names of the targets. -/
theorem evaluations_keys {b : Bm T} (h : Even b) :
    b.evaluations.map (fun t => (t.dims, t.name)) = (b.targets.zip b.ndims).map fun t => (t.2, t.1.2) := by
  obtain ⟨h1, h2, h3, h4⟩ := h
  unfold evaluations
  rw [List.map_map]
  have : ((b.targets.zip b.ndims).zip ((b.nsamples.zip b.evalSampl).zip b.batchSizes)).map Prod.fst = b.targets.zip b.ndims := by
    rw [List.map_fst_zip]
    simp [h1, h2, h3, h4]
  conv_rhs => rw [← this]
  rw [List.map_map]
  rfl

theorem method_new_named {E : Env T σ W V} {y : Yaml} {t : T} {w w' : W} {s : σ} (h : (method E y).new t w = (.ok s, w')) :
    ∃ n, nameOf y = some n := by
  unfold method at h
  dsimp only at h
  split at h
  · cases h
  · split at h
    · cases h
    · split at h
      · cases h
      · split at h
        · cases h
        · rename_i hx
          obtain ⟨n, hn, hx⟩ := bind_ok hx
          obtain ⟨v, hv, _⟩ := bind_ok hx
          unfold nameOf
          rw [hn]
          cases n <;> first | exact ⟨_, rfl⟩ | cases hv
  · cases h

theorem method_report {E : Env T σ W V} {y : Yaml} {n : String} (hy : nameOf y = some n) {s : σ} {rep : Report V}
    (h : (method E y).report s = .ok rep) : rep.name = n := by
  have h' : ((match y.get "type", y.get "params" with
    | .ok type, .ok (.map ps) => E.method type ps
    | _, _ => E.method .other []).report s).map (fun r : Report V => { r with name := (nameOf y).getD r.name }) = .ok rep := h
  rw [hy] at h'
  generalize Method.report _ s = x at h'
  cases x with
  | error => cases h'
  | ok r => cases h'; rfl

theorem loadMethods_named {E : Env T σ W V} : ∀ {ms : List Yaml} {l : List (Method T σ W V × σ)} {obj : T} {w w' : W},
    loadMethods obj (ms.map (method E)) w = (.ok l, w') → ∀ y ∈ ms, ∃ n, nameOf y = some n
  | [], _, _, _, _, _, y, hy => absurd hy List.not_mem_nil
  | y0 :: ms, l, obj, w, w', h, y, hy => by
    rw [List.map_cons] at h
    unfold loadMethods at h
    split at h
    · cases h
    · rename_i h1
      split at h
      · cases h
      · rename_i h2
        rcases List.mem_cons.1 hy with rfl | hy
        · exact method_new_named h1
        · exact loadMethods_named h2 y hy

/-! ### File names -/

theorem split_unique {c : Char} : ∀ {a a' b b' : List Char}, c ∉ a → c ∉ a' → a ++ c :: b = a' ++ c :: b' → a = a' ∧ b = b'
  | [], [], _, _, _, _, h => ⟨rfl, by simpa using h⟩
  | [], x :: a', _, _, _, h2, h => by
    simp only [List.nil_append, List.cons_append, List.cons.injEq] at h
    exact absurd (by rw [← h.1]; simp) h2
  | x :: a, [], _, _, h1, _, h => by
    simp only [List.nil_append, List.cons_append, List.cons.injEq] at h
    exact absurd (by rw [h.1]; simp) h1
  | x :: a, x' :: a', b, b', h1, h2, h => by
    simp only [List.cons_append, List.cons.injEq] at h
    obtain ⟨r1, r2⟩ := split_unique (fun hm => h1 (List.mem_cons_of_mem _ hm)) (fun hm => h2 (List.mem_cons_of_mem _ hm)) h.2
    exact ⟨by rw [h.1, r1], r2⟩

theorem natText_inj {a b : ℕ} (h : natText a = natText b) : a = b := by
  have h1 := readNat_natText a
  rw [h, readNat_natText b] at h1
  exact (Option.some.inj h1).symm

/-- Plots of different dimension, target or metric are written to different files, if the names of the metrics do not contain
an underscore. -/
theorem path_inj {dir : String} {p p' : PlotFile} (h1 : '_' ∉ p.metric.toList) (h2 : '_' ∉ p'.metric.toList)
    (h : p.path dir = p'.path dir) : p.dims = p'.dims ∧ p.target = p'.target ∧ p.metric = p'.metric := by
  unfold PlotFile.path at h
  have h := List.append_cancel_left h
  have hD : ∀ n, 'D' ∉ natText n := fun n hm => by
    have := natText_digit hm
    revert this
    decide
  obtain ⟨q1, q2⟩ := split_unique (hD _) (hD _) h
  simp only [List.cons.injEq, true_and] at q2
  have q3 := congrArg List.reverse q2
  simp only [List.reverse_append, List.reverse_cons, List.append_assoc, List.cons_append, List.nil_append] at q3
  have q4 := List.append_cancel_left q3
  obtain ⟨q5, q6⟩ := split_unique (by simpa using h1) (by simpa using h2) q4
  exact ⟨natText_inj q1, String.toList_inj.1 (List.reverse_injective q6), String.toList_inj.1 (List.reverse_injective q5)⟩

/-! ### C143 -/

/-- A run that returned, in parts. -/
theorem run_done {o : Ops T σ W μ V} {E : Env T σ W V} {bf mf cf out : String} {fuel : ℕ} {b : Bm T} {w : W} {r : Result T W V}
    (h : run o E bf mf cf out fuel b w = .done r) :
    ∃ (y : Yaml) (c b1 : Bm T) (ms : List Yaml) (w0 : W) (p : W × List (Row V)), E.read cf = .ok y ∧
      loadConfig y { b with outputFile := out } = .ok c ∧ loadBenchmark E bf c = .ok b1 ∧ entries E mf = .ok ms ∧
      b1.evaluations ≠ [] ∧ b1.targets ≠ [] ∧
      runTargets o ⟨b1.metrics, b1.rseed, b1.nExperiments, b1.timeout⟩ fuel (ms.map (method E)) b1.evaluations (w0, []) = .done p ∧
      r.obj = { b1 with debugPlotSavePath := if b1.debugPlotSave then b1.debugPlotSavePath else none, methods := names ms } ∧
      r.file = some (header b1.metrics, p.2) ∧ r.plots = if b1.generatePlots then r.obj.plots else [] := by
  unfold run at h
  dsimp only at h
  split at h
  · cases h
  · rename_i c hc
    obtain ⟨y, hy, hc⟩ := bind_ok hc
    split at h
    · cases h
    · rename_i b1 hb
      split at h
      · cases h
      · rename_i hne
        split at h
        · cases h
        · rename_i ms hms
          split at h
          · cases h
          · cases h
          · rename_i p hp
            cases h
            have hev : evaluations { b1 with debugPlotSavePath := if b1.debugPlotSave then b1.debugPlotSavePath else none } =
                b1.evaluations := rfl
            rw [hev] at hp
            unfold Bench.run at hp
            dsimp only at hp
            split at hp
            · cases hp
            · rename_i hts
              exact ⟨y, c, b1, ms, _, p, hy, hc, hb, hms, hts, fun e => hne (.inl e), hp, rfl, rfl, rfl⟩

theorem plots_triples (b : Bm T) : b.plots.map (fun p => ((p.dims, p.target), p.metric)) =
    ((b.targets.zip b.ndims).map fun t => (t.2, t.1.2)) ×ˢ b.metrics := by
  unfold plots
  rw [List.map_flatMap]
  simp only [List.map_map, Function.comp_def]
  show _ = List.product _ _
  unfold List.product
  rw [List.flatMap_map]

/-- **C143_partial** A run that returned and makes plots, where no two targets agree in both name and number of dimensions, no
two methods have the same name, and no two metrics; no metric has an underscore in its name. Then there is a plot for every
target and metric; no two plots are written to the same file; and what a plot shows for a method is what was written in the
evaluation of that method on the target of the plot: no rows are missing, and none belong to another target or method. -/
theorem C143_partial (o : Ops T σ W μ V) (E : Env T σ W V) (bf mf cf out : String) (fuel : ℕ) (b : Bm T) (w : W) (r : Result T W V)
    (h : run o E bf mf cf out fuel b w = .done r) (hplots : r.obj.generatePlots = true)
    (htargets : (r.obj.evaluations.map fun t => (t.dims, t.name)).Nodup) (hmethods : r.obj.methods.Nodup)
    (hmetrics : r.obj.metrics.Nodup) (hunder : ∀ k ∈ r.obj.metrics, '_' ∉ k.toList) :
    (∀ t ∈ r.obj.evaluations, ∀ k ∈ r.obj.metrics, ∃ p ∈ r.plots, p.dims = t.dims ∧ p.target = t.name ∧ p.metric = k) ∧
    (r.plots.map (PlotFile.path r.obj.plotsPath)).Nodup ∧
    ∃ ms head rows, entries E mf = .ok ms ∧ r.file = some (head, rows) ∧
      ∀ p ∈ r.plots, p.methods = names ms ∧ ∃ t ∈ r.obj.evaluations, t.dims = p.dims ∧ t.name = p.target ∧
        ∀ y ∈ ms, ∃ n, nameOf y = some n ∧
          Wrote o ⟨r.obj.metrics, r.obj.rseed, r.obj.nExperiments, r.obj.timeout⟩ fuel (method E y) t (p.rows n rows) := by
  obtain ⟨y, c, b1, ms, w0, p, hy, hc, hb, hms, hev, htne, hp, hobj, hfile, hpl⟩ := run_done h
  have heven := loadBenchmark_even hb
  have hkeys := evaluations_keys heven
  have hgen : b1.generatePlots = true := by rw [hobj] at hplots; exact hplots
  rw [if_pos hgen] at hpl
  have e1 : r.obj.evaluations = b1.evaluations := by rw [hobj]; rfl
  have e2 : r.obj.metrics = b1.metrics := by rw [hobj]
  have e3 : r.obj.methods = names ms := by rw [hobj]
  have e4 : r.obj.targets = b1.targets := by rw [hobj]
  have e5 : r.obj.ndims = b1.ndims := by rw [hobj]
  have htr := plots_triples r.obj
  rw [e4, e5, ← hkeys, ← e1] at htr
  have hmem : ∀ x : PlotFile, x ∈ r.plots → (x.dims, x.target) ∈ r.obj.evaluations.map (fun t => (t.dims, t.name)) ∧
      x.metric ∈ r.obj.metrics := by
    intro x hx
    rw [hpl] at hx
    have := List.mem_map_of_mem (f := fun p : PlotFile => ((p.dims, p.target), p.metric)) hx
    rw [htr] at this
    exact List.pair_mem_product.1 this
  refine ⟨?_, ?_, ms, _, p.2, hms, hfile, ?_⟩
  · intro t ht k hk
    have : ((t.dims, t.name), k) ∈ (r.obj.evaluations.map fun t => (t.dims, t.name)) ×ˢ r.obj.metrics :=
      List.pair_mem_product.2 ⟨List.mem_map.2 ⟨t, ht, rfl⟩, hk⟩
    rw [← htr, List.mem_map] at this
    obtain ⟨q, hq, e⟩ := this
    simp only [Prod.mk.injEq] at e
    exact ⟨q, by rw [hpl]; exact hq, e.1.1, e.1.2, e.2⟩
  · have hnd : (r.plots.map fun p : PlotFile => ((p.dims, p.target), p.metric)).Nodup := by
      rw [hpl, htr]
      exact htargets.product hmetrics
    refine (List.Nodup.of_map _ hnd).map_on ?_ 
    intro x hx x' hx' e
    obtain ⟨q1, q2, q3⟩ := path_inj (hunder _ (hmem x hx).2) (hunder _ (hmem x' hx').2) e
    exact List.inj_on_of_nodup_map hnd hx hx' (by rw [q1, q2, q3])
  · intro x hx
    have hxm : x.methods = names ms := by
      rw [hpl] at hx
      unfold plots at hx
      rw [List.mem_flatMap] at hx
      obtain ⟨t, _, hx⟩ := hx
      obtain ⟨k, _, rfl⟩ := List.mem_map.1 hx
      exact e3
    refine ⟨hxm, ?_⟩
    obtain ⟨t, ht, hte⟩ := List.mem_map.1 (hmem x hx).1
    simp only [Prod.mk.injEq] at hte
    refine ⟨t, ht, hte.1, hte.2, ?_⟩
    obtain ⟨B, hB1, hB2⟩ := runTargets_blocks _ _ _ hp
    rw [List.nil_append] at hB1
    rw [← e1] at hB2
    -- every entry has a name
    have hnamed : ∀ y ∈ ms, ∃ n, nameOf y = some n := by
      cases hl : b1.evaluations with
      | nil => exact absurd hl hev
      | cons t0 ts =>
        rw [hl] at hp
        unfold runTargets at hp
        split at hp
        · cases hp
        · rename_i hlm
          exact loadMethods_named hlm
    have hnames : (ms.map nameOf).Nodup := by
      have : ms.map nameOf = (names ms).map some := by
        unfold names
        clear hB2 hB1 hp hms hobj hmethods e3 hxm
        induction ms with
        | nil => rfl
        | cons a ms ih =>
          obtain ⟨n, hn⟩ := hnamed a (by simp)
          rw [List.map_cons, List.filterMap_cons, hn, ih fun y hy => hnamed y (List.mem_cons_of_mem _ hy)]
          rfl
      rw [this]
      refine List.Nodup.map (Option.some_injective _) ?_
      rw [← e3]
      exact hmethods
    have hmsn : ms.Nodup := List.Nodup.of_map _ hnames
    have htsn : r.obj.evaluations.Nodup := List.Nodup.of_map _ htargets
    intro y hy
    obtain ⟨n, hn⟩ := hnamed y hy
    refine ⟨n, hn, ?_⟩
    have hB3 : List.Forall₂ (fun t X => ∃ C, X = C.flatten ∧ List.Forall₂ (fun y b =>
        Wrote o ⟨b1.metrics, b1.rseed, b1.nExperiments, b1.timeout⟩ fuel (method E y) t b) ms C)
        r.obj.evaluations (B.map List.flatten) := by
      rw [List.forall₂_map_right_iff]
      refine hB2.imp fun t C hC => ⟨C, rfl, ?_⟩
      rw [List.forall₂_map_left_iff] at hC
      exact hC
    have hrow : ∀ t' X, (∃ C : List (List (Row V)), X = C.flatten ∧ List.Forall₂ (fun y b =>
        Wrote o ⟨b1.metrics, b1.rseed, b1.nExperiments, b1.timeout⟩ fuel (method E y) t' b) ms C) →
        ∀ row ∈ X, row.dims = t'.dims ∧ row.target = t'.name := by
      rintro t' X ⟨C, rfl, hC⟩ row hrow
      rw [List.mem_flatten] at hrow
      obtain ⟨l, hl, hrow⟩ := hrow
      clear hB3 hmsn hnames hnamed hxm e3 hB2 hms hobj hp hy
      induction hC with
      | nil => cases hl
      | cons g _ ih =>
        rcases List.mem_cons.1 hl with rfl | hl
        · exact ⟨(g.of row hrow).1, (g.of row hrow).2.1⟩
        · exact ih hl
    obtain ⟨X, ⟨C, rfl, hC⟩, hX⟩ := filter_blocks (q := fun row => row.dims == x.dims && row.target == x.target) hB3 ht htsn
      (by
        intro X hX row hr
        obtain ⟨q1, q2⟩ := hrow t X hX row hr
        rw [q1, q2, hte.1, hte.2]
        simp)
      (by
        intro t' ht' hne X hX row hr
        obtain ⟨q1, q2⟩ := hrow t' X hX row hr
        rw [q1, q2, Bool.and_eq_false_iff]
        by_contra hcon
        push Not at hcon
        refine hne (List.inj_on_of_nodup_map htargets ht' ht ?_)
        simp only [Prod.mk.injEq]
        exact ⟨by simpa [hte.1] using hcon.1, by simpa [hte.2] using hcon.2⟩)
    obtain ⟨R, hR1, hR2⟩ := filter_blocks (q := fun row => row.report.name == n) hC hy hmsn
      (by
        intro R hR row hr
        obtain ⟨_, _, s, hs⟩ := hR.of row hr
        rw [method_report hn hs]
        simp)
      (by
        intro y' hy' hne R hR row hr
        obtain ⟨_, _, s, hs⟩ := hR.of row hr
        obtain ⟨n', hn'⟩ := hnamed y' hy'
        rw [method_report hn' hs]
        by_contra hcon
        refine hne (List.inj_on_of_nodup_map hnames hy' hy ?_)
        rw [hn', hn]
        have : n' = n := by simpa using hcon
        rw [this])
    have hrows : x.rows n p.2 = R := by
      unfold PlotFile.rows
      rw [hB1, ← hR2, ← hX, List.filter_filter]
    rw [hrows, hobj]
    exact hR1

/-- Two targets of one dimension, with five and seven samples; the second is called `second`. -/
def twoFile (second : String) : String → Option Yaml
  | "b" => some (.map [("targets", .list [
      .map [("name", .str "g"), ("type", .str "G"), ("params", .map []),
        ("batch_size", .int 2), ("nsamples", .int 5), ("nsamples_eval", .int 10), ("tags", .list [])],
      .map [("name", .str second), ("type", .str "H"), ("params", .map []),
        ("batch_size", .int 4), ("nsamples", .int 7), ("nsamples_eval", .int 10), ("tags", .list [])]])])
  | f => demoFile f

def twoEnv (second : String) : Env Unit ℕ Unit ℕ := { demoEnv with file := twoFile second }

theorem two_run (second : String) : ∃ r, run demoOps (twoEnv second) "b" "m" "c" "out" 10 (Bm.new Unit) () = .done r ∧
    r.obj.generatePlots = true ∧ r.obj.metrics = ["JSD"] ∧ r.obj.methods = ["mh"] ∧ r.obj.plotsPath = "r/" ∧
    r.obj.evaluations.map (fun t => (t.dims, t.name)) = [(1, "g"), (1, second)] ∧
    r.plots.map (fun p => ((p.dims, p.target), p.metric)) = [((1, "g"), "JSD"), ((1, second), "JSD")] ∧
    ∃ head rows, r.file = some (head, rows) ∧
      rows.map (fun l => (l.report.name, l.dims, l.target, l.nsamples)) = [("mh", 1, "g", 5), ("mh", 1, second, 7)] := by
  have hc : (do loadConfig (← (twoEnv second).read "c") { Bm.new Unit with outputFile := "out" }) =
      .ok { Bm.new Unit with outputFile := "out", metrics := ["JSD"], debugPlotSave := true, debugPlotSavePath := some "p/",
                             nExperiments := 1, rseed := 0, generatePlots := true, plotsPath := "r/" } := rfl
  have hb : loadBenchmark (twoEnv second) "b" { Bm.new Unit with
      outputFile := "out", metrics := ["JSD"], debugPlotSave := true, debugPlotSavePath := some "p/",
      nExperiments := 1, rseed := 0, generatePlots := true, plotsPath := "r/" } = .ok { Bm.new Unit with
      outputFile := "out", metrics := ["JSD"], debugPlotSave := true, debugPlotSavePath := some "p/",
      nExperiments := 1, rseed := 0, generatePlots := true, plotsPath := "r/", targets := [((), "g"), ((), second)], ndims := [1, 1],
      batchSizes := [2, 4], nsamples := [5, 7], evalSampl := [10, 10] } := rfl
  have hm : entries (twoEnv second) "m" = .ok [.map [("name", .str "mh"), ("type", .str "M"), ("debug", .bool true),
      ("params", .map [])]] := rfl
  have ht : ¬ ((18000 : ℝ) < 0) := by norm_num
  unfold run
  simp only [hc, hb, hm]
  simp [evaluations, Bench.run, runTargets, runMethods, evaluate, forN, repetition, loop, iter, each, newMetrics, names,
    loadMethods, method, nameOf, Except.map, Yaml.get, Yaml.asStr, twoEnv, demoEnv, demoMethod, demoOps, computeAll, dictSet,
    Kind.ofConfig, Kind.name, finish, plots, Bm.new, bind, Except.bind, ht, List.lookup]

/-- Two targets of different names: the hypotheses of `C143_partial` hold. -/
example : ∃ r, run demoOps (twoEnv "h") "b" "m" "c" "out" 10 (Bm.new Unit) () = .done r ∧ r.obj.generatePlots = true ∧
    (r.obj.evaluations.map fun t => (t.dims, t.name)).Nodup ∧ r.obj.methods.Nodup ∧ r.obj.metrics.Nodup ∧
    ∀ k ∈ r.obj.metrics, '_' ∉ k.toList := by
  obtain ⟨r, h1, h2, h3, h4, -, h6, -⟩ := two_run "h"
  refine ⟨r, h1, h2, ?_, ?_, ?_, ?_⟩
  · rw [h6]; decide
  · rw [h4]; decide
  · rw [h3]; decide
  · rw [h3]; decide

theorem map_two {α β : Type*} {f : α → β} {l : List α} {a b : β} (h : l.map f = [a, b]) :
    ∃ x y, l = [x, y] ∧ f x = a ∧ f y = b := by
  obtain ⟨x, l', rfl, rfl, h1⟩ := List.map_eq_cons_iff.1 h
  obtain ⟨y, l'', rfl, rfl, h2⟩ := List.map_eq_cons_iff.1 h1
  rw [List.map_eq_nil_iff] at h2
  subst h2
  exact ⟨x, y, rfl, rfl, rfl⟩

/-- **C143_refuted** Two targets with the same name and number of dimensions: the run returns; the two plots are written to the
same file, and both show the rows of both targets (here recognised by the number of samples, five and seven). -/
theorem C143_refuted : ∃ (r : Result Unit Unit ℕ) (rows : List (Row ℕ)) (head : List Char),
    run demoOps (twoEnv "g") "b" "m" "c" "out" 10 (Bm.new Unit) () = .done r ∧ r.file = some (head, rows) ∧
    r.plots.length = 2 ∧ ¬ (r.plots.map (PlotFile.path r.obj.plotsPath)).Nodup ∧
    ∀ p ∈ r.plots, (p.rows "mh" rows).map Row.nsamples = [5, 7] := by
  obtain ⟨r, h1, -, -, -, -, -, h7, head, rows, h8, h9⟩ := two_run "g"
  refine ⟨r, rows, head, h1, h8, ?_, ?_, ?_⟩
  · simpa using congrArg List.length h7
  · obtain ⟨x, x', hr, b1, b2⟩ := map_two h7
    simp only [Prod.mk.injEq] at b1 b2
    obtain ⟨⟨a1, a2⟩, a3⟩ := b1
    obtain ⟨⟨a4, a5⟩, a6⟩ := b2
    rw [hr]
    simp [PlotFile.path, a1, a2, a3, a4, a5, a6]
  · intro x hx
    have hx' := List.mem_map_of_mem (f := fun p : PlotFile => ((p.dims, p.target), p.metric)) hx
    rw [h7] at hx'
    simp only [List.mem_cons, List.not_mem_nil, or_false, or_self, Prod.mk.injEq] at hx'
    obtain ⟨l, l', rfl, b1, b2⟩ := map_two h9
    simp only [Prod.mk.injEq] at b1 b2
    obtain ⟨a1, a2, a3, a4⟩ := b1
    obtain ⟨a5, a6, a7, a8⟩ := b2
    simp [PlotFile.rows, a1, a2, a3, a4, a5, a6, a7, a8, hx'.1.1, hx'.1.2]

/-! ### C144 -/

/-- `b` with the five lists that `load_benchmark` fills. -/
def setLists (b c : Bm T) : Bm T :=
  { b with targets := c.targets, ndims := c.ndims, batchSizes := c.batchSizes, evalSampl := c.evalSampl, nsamples := c.nsamples }

theorem loadTarget_lists (E : Env T σ W V) (b c : Bm T) (y : Yaml) :
    loadTarget E (setLists b c) y = (loadTarget E c y).map (setLists b) := by
  unfold loadTarget
  dsimp only
  repeat (refine bind_map (setLists b) _ fun _ => ?_)
  split
  · rfl
  · repeat (refine bind_map (setLists b) _ fun _ => ?_)
    rfl

theorem loadTargets_lists (E : Env T σ W V) (b : Bm T) : ∀ (ts : List Yaml) (c : Bm T),
    ts.foldlM (loadTarget E) (setLists b c) = (ts.foldlM (loadTarget E) c).map (setLists b)
  | [], c => rfl
  | t :: ts, c => by
    rw [List.foldlM_cons, List.foldlM_cons, loadTarget_lists]
    cases loadTarget E c t with
    | error => rfl
    | ok c => exact loadTargets_lists E b ts c

/-- `load_benchmark` depends on the file only, and sets nothing but the five lists. -/
theorem loadBenchmark_lists (E : Env T σ W V) (f : String) (b c : Bm T) :
    loadBenchmark E f b = (loadBenchmark E f c).map (setLists b) := by
  unfold loadBenchmark
  dsimp only
  refine bind_map _ _ fun y => ?_
  refine bind_map _ _ fun l => ?_
  refine bind_map _ _ fun ts => ?_
  rw [← loadTargets_lists]
  rfl

theorem loadMethods_total {ms : List (Method T σ W V)} (h : ∀ m ∈ ms, ∀ t w, ∃ s w', m.new t w = (.ok s, w')) (t : T) (w : W) :
    ∃ l w', loadMethods t ms w = (.ok l, w') := by
  induction ms generalizing w with
  | nil => exact ⟨[], w, rfl⟩
  | cons m ms ih =>
    obtain ⟨s, w1, e1⟩ := h m (by simp) t w
    obtain ⟨l, w2, e2⟩ := ih (fun m' hm' => h m' (List.mem_cons_of_mem _ hm')) w1
    exact ⟨(m, s) :: l, w2, by unfold loadMethods; rw [e1]; dsimp only; rw [e2]⟩

theorem loadForAll_total {ms : List (Method T σ W V)} (h : ∀ m ∈ ms, ∀ t w, ∃ s w', m.new t w = (.ok s, w')) (ts : List T) (w : W) :
    ∃ w', loadForAll ms ts w = (.ok (), w') := by
  induction ts generalizing w with
  | nil => exact ⟨w, rfl⟩
  | cons t ts ih =>
    obtain ⟨l, w1, e1⟩ := loadMethods_total h t w
    obtain ⟨w2, e2⟩ := ih w1
    exact ⟨w2, by unfold loadForAll; rw [e1]; exact e2⟩

/-- **C144_partial** A run that returned and made plots, with methods whose constructors do not raise. Then `make_plots` with the
same three files and the result file of the run, in any object and any state of the random generator, returns; it reads the
result file of the run, and makes the same plots of the same methods in the same files. -/
theorem C144_partial (o : Ops T σ W μ V) (E : Env T σ W V) (bf mf cf out : String) (fuel : ℕ) (b : Bm T) (w : W) (r : Result T W V)
    (h : run o E bf mf cf out fuel b w = .done r) (hplots : r.obj.generatePlots = true) (ms : List Yaml)
    (hms : entries E mf = .ok ms) (hnew : ∀ y ∈ ms, ∀ t w, ∃ s w', (method E y).new t w = (.ok s, w')) (b' : Bm T) (w' : W) :
    ∃ c w'', makePlots o E (some bf) (some mf) (some cf) (some out) b' w' = (.ok (c, r.plots), w'') ∧ c.outputFile = out ∧
      c.plotsPath = r.obj.plotsPath ∧ c.plots = r.plots := by
  obtain ⟨y, c, b1, ms', w0, p, hy, hc, hb, hms', hev, htne, hp, hobj, hfile, hpl⟩ := run_done h
  rw [hms] at hms'
  cases hms'
  have hgen : b1.generatePlots = true := by rw [hobj] at hplots; exact hplots
  rw [if_pos hgen] at hpl
  -- the run: `b1` has the configuration of `c` and the lists of the file
  have hb1 : b1 = setLists c b1 := by
    have := loadBenchmark_lists E bf c c
    rw [hb] at this
    exact Except.ok.inj this
  -- `make_plots`
  have s1 : loadBenchmark E bf b' = .ok (setLists b' b1) := by rw [loadBenchmark_lists E bf b' c, hb]; rfl
  have s2 : (do loadConfig (← E.read cf) (setLists b' b1)) = .ok (keep (setLists b' b1) c) := by
    rw [hy]
    show loadConfig y _ = _
    rw [loadConfig_keep y _ { b with outputFile := out }, hc]
    rfl
  have hkeys := congrArg List.length (evaluations_keys (loadBenchmark_even hb))
  have hz : b1.targets.zip b1.ndims ≠ [] := by
    intro e
    rw [e] at hkeys
    simp only [List.length_map, List.length_nil] at hkeys
    exact hev (List.length_eq_zero_iff.1 hkeys)
  obtain ⟨w3, s3⟩ := loadForAll_total (ms := ms.map (method E))
    (by
      intro m hm
      obtain ⟨y, hy, rfl⟩ := List.mem_map.1 hm
      exact hnew y hy)
    ((b1.targets.zip b1.ndims).map fun t => t.1.1)
    (if 0 ≤ c.rseed then o.seed c.rseed.toNat w' else w')
  have hq : plots { keep (setLists b' b1) c with methods := names ms } = r.plots := by
    rw [hpl, hobj]
    unfold plots keep setLists
    dsimp only
    rw [hb1]
    rfl
  refine ⟨{ keep (setLists b' b1) c with methods := names ms, outputFile := out }, w3, ?_, rfl, ?_, ?_⟩
  · unfold makePlots plotBenchmark plotConfig plotMethods
    dsimp only
    rw [s1]
    dsimp only
    rw [s2]
    dsimp only
    have hz' : (keep (setLists b' b1) c).targets.zip (keep (setLists b' b1) c).ndims = b1.targets.zip b1.ndims := rfl
    have hr' : (keep (setLists b' b1) c).rseed = c.rseed := rfl
    rw [hz', hr', if_neg hz, hms]
    dsimp only
    rw [s3]
    dsimp only
    exact Prod.ext (congrArg Except.ok (Prod.ext rfl hq)) rfl
  · rw [hobj, hb1]
    rfl
  · exact hq

/-- The hypotheses of `C144_partial` hold for the run of the examples. -/
example : ∃ r ms, run demoOps (twoEnv "h") "b" "m" "c" "out" 10 (Bm.new Unit) () = .done r ∧ r.obj.generatePlots = true ∧
    entries (twoEnv "h") "m" = .ok ms ∧ ∀ y ∈ ms, ∀ t w, ∃ s w', (method (twoEnv "h") y).new t w = (.ok s, w') := by
  obtain ⟨r, h1, h2, -⟩ := two_run "h"
  refine ⟨r, _, h1, h2, rfl, ?_⟩
  intro y hy t w
  rw [List.mem_singleton] at hy
  subst hy
  exact ⟨_, _, rfl⟩

/-- **C144_refuted** The script that makes the plots reads the data from `results.txt` in the working directory, for every
command line and every content of the files, if it returns. The script that runs the benchmark writes, by default, another
file; a result file named on its command line is likewise read only if it is called `results.txt`. -/
theorem C144_refuted :
    (∀ (T : Type) (σ W μ V : Type) (o : Ops T σ W μ V) (E : Env T σ W V) (dir : String) (argv : List String) (w w' : W) (c : Bm T)
      (ps : List PlotFile), runPlots o E dir argv w = (.ok (c, ps), w') → c.outputFile = "results.txt") ∧
    (∀ dir script : String, (commandLine dir [script]).2.2.2 ≠ "results.txt") ∧
    (∃ c ps w', runPlots demoOps (twoEnv "h") "d/" ["run_plots.py", "b", "m", "c"] () = (.ok (c, ps), w') ∧ ps.length = 2) := by
  refine ⟨?_, ?_, ?_⟩
  · intro T σ W μ V o E dir argv w w' c ps h
    unfold runPlots makePlots at h
    dsimp only at h
    split at h
    · cases h
    · rename_i b1 h1
      have k1 : b1.outputFile = "results.txt" := by
        unfold plotBenchmark at h1
        dsimp only at h1
        rw [loadBenchmark_lists E _ _ (Bm.new T)] at h1
        cases hx : loadBenchmark E (plotsCommandLine dir argv).1 (Bm.new T) with
        | error e => rw [hx] at h1; cases h1
        | ok d => rw [hx] at h1; cases h1; rfl
      split at h
      · cases h
      · rename_i b2 w2 h2
        have k2 : b2.outputFile = "results.txt" := by
          unfold plotConfig at h2
          dsimp only at h2
          split at h2
          · cases h2
          · rename_i b3 h3
            cases h2
            obtain ⟨y, _, h3⟩ := bind_ok h3
            rw [(loadConfig_kept h3).2, k1]
        split at h
        · cases h
        · rename_i b4 w4 h4
          cases h
          unfold plotMethods at h4
          dsimp only at h4
          split at h4
          · cases h4; exact k2
          · split at h4
            · cases h4
            · split at h4
              · cases h4
              · cases h4; exact k2
  · intro dir script e
    have h := congrArg (fun s : String => s.toList.length) e
    have : (commandLine dir [script]).2.2.2 = dir ++ "results/results.txt" := rfl
    simp only [this, String.toList_append, List.length_append] at h
    have e1 : "results/results.txt".toList.length = 19 := by decide
    have e2 : "results.txt".toList.length = 11 := by decide
    omega
  · exact ⟨_, _, _, rfl, rfl⟩

end Bm
end Bench
end Verif
