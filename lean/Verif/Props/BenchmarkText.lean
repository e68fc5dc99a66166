import Verif.Props.Benchmark
import Mathlib.Data.List.Nodup

/-!
# The result file of the benchmark (C63)
-/

set_option linter.unusedSectionVars false
set_option autoImplicit false

namespace Verif
namespace Bench

variable {T σ W μ V : Type*} {o : Ops T σ W μ V} {m : Method T σ W V} {t : Target T}

/-! ### Specification -/

/-- The fields of a line for a reader that takes runs of blanks as separators (CBenchmark.py:252:
`pd.read_table(sep=" ", skipinitialspace=True)`); `cur` is the field being read. -/
def fieldsFrom (cur : List Char) : List Char → List (List Char)
  | [] => if cur = [] then [] else [cur]
  | ch :: cs =>
    if ch = ' ' then (if cur = [] then fieldsFrom [] cs else cur :: fieldsFrom [] cs) else fieldsFrom (cur ++ [ch]) cs

/-- The fields of a line. -/
def fields (l : List Char) : List (List Char) := fieldsFrom [] l

/-- A text that is one field. -/
def Word (l : List Char) : Prop := l ≠ [] ∧ ' ' ∉ l

/-- Numbers are formatted to words. -/
structure Fmt.Ok (F : Fmt V) : Prop where
  nat : ∀ n, Word (F.nat n)
  dec : ∀ p v, Word (F.dec p v)

/-- `vals` are the values the metrics `ms` computed one after the other, starting in the given state. -/
inductive ComputedBy (o : Ops T σ W μ V) (t : T) : List (Kind × μ) → σ → W → List V → Prop
  | nil (s w) : ComputedBy o t [] s w []
  | cons {k x ms s w v x' s' w' vs} : o.compute t k x s w = (.ok v, x', s', w') → ComputedBy o t ms s' w' vs →
      ComputedBy o t ((k, x) :: ms) s w (v :: vs)

/-- The columns after the metrics. -/
def tailColumns : List (List Char) :=
  ["NESS".toList, "method".toList, "target_d".toList, "accept_rate".toList, "proposal_samples".toList,
    "proposal_evals".toList, "target_evals".toList]

/-! ### Fields -/

theorem fieldsFrom_word {w : List Char} (hw : ' ' ∉ w) : ∀ cur rest,
    fieldsFrom cur (w ++ rest) = fieldsFrom (cur ++ w) rest := by
  induction w with
  | nil => intro cur rest; simp
  | cons a w ih =>
    intro cur rest
    have ha : a ≠ ' ' := fun h => hw (by simp [h])
    rw [List.cons_append, fieldsFrom, if_neg ha, ih (fun h => hw (List.mem_cons_of_mem _ h)), List.append_assoc]
    rfl

theorem fields_word_space {w : List Char} (hw : Word w) (rest : List Char) :
    fields (w ++ ' ' :: rest) = w :: fields rest := by
  unfold fields
  rw [fieldsFrom_word hw.2, List.nil_append, fieldsFrom, if_pos rfl, if_neg hw.1]

theorem fields_word {w : List Char} (hw : Word w) : fields w = [w] := by
  unfold fields
  conv_lhs => rw [← List.append_nil w]
  rw [fieldsFrom_word hw.2, List.nil_append, fieldsFrom, if_neg hw.1]

theorem fields_space (rest : List Char) : fields (' ' :: rest) = fields rest := by
  unfold fields; rw [fieldsFrom, if_pos rfl, if_pos rfl]

theorem fields_spaces (n : ℕ) (rest : List Char) : fields (List.replicate n ' ' ++ rest) = fields rest := by
  induction n with
  | zero => rfl
  | succ n ih => rw [List.replicate_succ, List.cons_append, fields_space, ih]

theorem fields_pad_space {w : List Char} (hw : Word w) (n : ℕ) (rest : List Char) :
    fields (pad n w ++ ' ' :: rest) = w :: fields rest := by
  rw [pad, List.append_assoc, fields_spaces, fields_word_space hw]

theorem zpad_word {w : List Char} (hw : Word w) (n : ℕ) : Word (zpad n w) := by
  refine ⟨by simp [zpad, hw.1], ?_⟩
  simp only [zpad, List.mem_append, List.mem_replicate, not_or, not_and]
  exact ⟨fun _ h => absurd h (by decide), hw.2⟩

/-- A blank after the joined texts separates them from the rest. -/
theorem fields_join (f : V → List Char) (hf : ∀ v, Word (f v)) (n : ℕ) : ∀ (vs : List V) (rest : List Char),
    fields (join (vs.map fun v => pad n (f v)) ++ ' ' :: rest) = vs.map f ++ fields rest
  | [], rest => by simp [join, fields_space]
  | [v], rest => by
    show fields (pad n (f v) ++ ' ' :: rest) = _
    rw [fields_pad_space (hf v)]
    rfl
  | v :: v' :: vs, rest => by
    show fields ((pad n (f v) ++ ' ' :: join ((v' :: vs).map fun v => pad n (f v))) ++ ' ' :: rest) = _
    rw [List.append_assoc, List.cons_append, fields_pad_space (hf v), fields_join f hf n (v' :: vs)]
    rfl

/-- Without a blank the last of the joined texts runs into the next. -/
theorem fields_join_glued (f : V → List Char) (hf : ∀ v, Word (f v)) (n : ℕ) (g : List Char) (hg : Word g) (v : V) :
    ∀ (vs : List V) (rest : List Char),
    fields (join ((vs ++ [v]).map fun v => pad n (f v)) ++ (g ++ ' ' :: rest)) = vs.map f ++ (f v ++ g) :: fields rest
  | [], rest => by
    show fields (pad n (f v) ++ (g ++ ' ' :: rest)) = _
    rw [← List.append_assoc]
    have : pad n (f v) ++ g = List.replicate (n - (f v).length) ' ' ++ (f v ++ g) := by simp [pad]
    rw [this, List.append_assoc, fields_spaces,
      fields_word_space ⟨by simp [hg.1], by simp [(hf v).2, hg.2]⟩]
    rfl
  | [u], rest => by
    show fields ((pad n (f u) ++ ' ' :: join (([] ++ [v]).map fun v => pad n (f v))) ++ (g ++ ' ' :: rest)) = _
    rw [List.append_assoc, List.cons_append, fields_pad_space (hf u), fields_join_glued f hf n g hg v []]
    rfl
  | u :: u' :: vs, rest => by
    show fields ((pad n (f u) ++ ' ' :: join (((u' :: vs) ++ [v]).map fun v => pad n (f v))) ++ (g ++ ' ' :: rest)) = _
    rw [List.append_assoc, List.cons_append, fields_pad_space (hf u), fields_join_glued f hf n g hg v (u' :: vs)]
    rfl

theorem join_words : ∀ (ws : List (List Char)) (_ : ∀ w ∈ ws, Word w) (rest : List Char),
    fields (join ws ++ ' ' :: rest) = ws ++ fields rest
  | [], _, rest => by simp [join, fields_space]
  | [w], h, rest => by
    show fields (w ++ ' ' :: rest) = _
    rw [fields_word_space (h w (by simp))]
    rfl
  | w :: w' :: ws, h, rest => by
    show fields ((w ++ ' ' :: join (w' :: ws)) ++ ' ' :: rest) = _
    rw [List.append_assoc, List.cons_append, fields_word_space (h w (by simp)),
      join_words (w' :: ws) (fun x hx => h x (List.mem_cons_of_mem _ hx))]
    rfl

theorem fields_header {metrics : List String} (h : ∀ x ∈ metrics, Word x.toList) :
    fields (header metrics) =
      ["dims".toList, "output_samples".toList] ++ metrics.map String.toList ++ tailColumns := by
  unfold header
  rw [show "dims output_samples ".toList = "dims".toList ++ ' ' :: ("output_samples".toList ++ [' ']) from by decide]
  simp only [List.append_assoc, List.cons_append]
  rw [fields_word_space (by constructor <;> decide), fields_word_space (by constructor <;> decide)]
  rw [List.nil_append,
    show " NESS method target_d accept_rate proposal_samples proposal_evals target_evals".toList =
      ' ' :: "NESS method target_d accept_rate proposal_samples proposal_evals target_evals".toList from by decide,
    join_words _ (by simpa using h)]
  rw [show fields "NESS method target_d accept_rate proposal_samples proposal_evals target_evals".toList = tailColumns
    from by decide]
  rfl

/-- The fields of a line after the metrics. -/
def tailFields (F : Fmt V) (r : Row V) : List (List Char) :=
  [r.report.name.toList, r.target.toList, F.dec 3 r.report.acceptRate, F.nat r.report.numQ, F.nat r.report.numQEval,
    F.nat r.report.numPi]

theorem fields_tail {F : Fmt V} (hF : F.Ok) {r : Row V} (hn : Word r.report.name.toList) (ht : Word r.target.toList) :
    fields (r.report.name.toList ++ ' ' :: (r.target.toList ++ ' ' :: (pad 5 (F.dec 3 r.report.acceptRate) ++ ' ' ::
        (F.nat r.report.numQ ++ ' ' :: (F.nat r.report.numQEval ++ ' ' :: F.nat r.report.numPi))))) = tailFields F r := by
  rw [fields_word_space hn, fields_word_space ht, fields_pad_space (hF.dec _ _), fields_word_space (hF.nat _),
    fields_word_space (hF.nat _), fields_word (hF.nat _)]
  rfl

theorem fields_row {F : Fmt V} (hF : F.Ok) {r : Row V} (hn : Word r.report.name.toList) (ht : Word r.target.toList)
    (hw : r.values = [] ∨ (F.dec 3 r.report.ness).length ≤ 8) :
    fields (rowText F r) = [zpad 2 (F.nat r.dims), zpad 4 (F.nat r.nsamples)] ++ r.values.map (fun e => F.dec 5 e.2) ++
      F.dec 3 r.report.ness :: tailFields F r := by
  unfold rowText
  rw [fields_word_space (zpad_word (hF.nat _) 2), fields_word_space (zpad_word (hF.nat _) 4)]
  rcases hw with hw | hw
  · rw [hw]
    show _ :: _ :: fields (pad 9 _ ++ ' ' :: _) = _
    rw [fields_pad_space (hF.dec _ _), fields_tail hF hn ht]
    rfl
  · obtain ⟨k, hk⟩ : ∃ k, 9 - (F.dec 3 r.report.ness).length = k + 1 := ⟨8 - (F.dec 3 r.report.ness).length, by omega⟩
    have : pad 9 (F.dec 3 r.report.ness) = ' ' :: (List.replicate k ' ' ++ F.dec 3 r.report.ness) := by
      rw [pad, hk, List.replicate_succ]; rfl
    rw [this, List.cons_append, fields_join (V := String × V) (fun e => F.dec 5 e.2) (fun e => hF.dec _ _),
      List.append_assoc, fields_spaces, fields_word_space (hF.dec _ _), fields_tail hF hn ht]
    rfl

theorem fields_row_glued {F : Fmt V} (hF : F.Ok) {r : Row V} (hn : Word r.report.name.toList) (ht : Word r.target.toList)
    {vs : List (String × V)} {v : String × V} (hv : r.values = vs ++ [v]) (hw : 9 ≤ (F.dec 3 r.report.ness).length) :
    fields (rowText F r) = [zpad 2 (F.nat r.dims), zpad 4 (F.nat r.nsamples)] ++ vs.map (fun e => F.dec 5 e.2) ++
      (F.dec 5 v.2 ++ F.dec 3 r.report.ness) :: tailFields F r := by
  unfold rowText
  rw [fields_word_space (zpad_word (hF.nat _) 2), fields_word_space (zpad_word (hF.nat _) 4), hv]
  have : pad 9 (F.dec 3 r.report.ness) = F.dec 3 r.report.ness := by
    rw [pad, Nat.sub_eq_zero_of_le hw]; rfl
  rw [this, fields_join_glued (V := String × V) (fun e => F.dec 5 e.2) (fun e => hF.dec _ _) 9 _ (hF.dec _ _) v,
    fields_tail hF hn ht]
  rfl

/-! ### The lines of an evaluation -/

/-- The line holds the values computed by the metrics `kinds`, in their order. -/
structure Holds (o : Ops T σ W μ V) (t : Target T) (kinds : List Kind) (row : Row V) (vals : List V) : Prop where
  computed : ∃ ms s w, ms.map Prod.fst = kinds ∧ ComputedBy o t.obj ms s w vals
  values : row.values = (kinds.map Kind.name).zip vals
  target : row.target = t.name

theorem newMetrics_kinds : ∀ (ms : List String) (w : W), (newMetrics o ms w).1.map Prod.fst = ms.filterMap Kind.ofConfig
  | [], _ => rfl
  | x :: ms, w => by
    unfold newMetrics
    cases h : Kind.ofConfig x with
    | none => dsimp only; rw [newMetrics_kinds, List.filterMap_cons_none h]
    | some k => dsimp only; rw [List.map_cons, newMetrics_kinds, List.filterMap_cons_some h]

theorem each_kinds (g : Kind → μ → W → μ × W) : ∀ (ms : List (Kind × μ)) (w : W),
    (each g ms w).1.map Prod.fst = ms.map Prod.fst
  | [], _ => rfl
  | (k, x) :: ms, w => by
    show k :: (each g ms (g k x w).2).1.map Prod.fst = _
    rw [each_kinds g ms]
    rfl

theorem name_inj : Function.Injective Kind.name := by
  intro a b h
  cases a <;> cases b <;> first | rfl | (exact absurd h (by decide))

theorem computeAll_ok : ∀ {ms : List (Kind × μ)} {d : List (String × V)} {s : σ} {w : W} {d' ms' s' w'},
    computeAll o t.obj ms d s w = (.ok d', ms', s', w') → ms'.map Prod.fst = ms.map Prod.fst ∧
      ∃ vals, ComputedBy o t.obj ms s w vals ∧ ((d.map Prod.fst ++ ms.map fun e => e.1.name).Nodup →
        d' = d ++ (ms.map fun e => e.1.name).zip vals)
  | [], d, s, w, d', ms', s', w', h => by
    cases h
    exact ⟨rfl, [], .nil _ _, by simp⟩
  | (k, x) :: ms, d, s, w, d', ms', s', w', h => by
    unfold computeAll at h
    split at h
    · cases h
    · rename_i v x1 s1 w1 hc
      dsimp only at h
      generalize hr : computeAll o t.obj ms (dictSet d k.name v) s1 w1 = rest at h
      obtain ⟨a, b, c, e⟩ := rest
      dsimp only at h
      cases h
      obtain ⟨h1, vals, h2, h3⟩ := computeAll_ok hr
      refine ⟨by rw [List.map_cons, h1]; rfl, v :: vals, .cons hc h2, fun hnd => ?_⟩
      have hk : k.name ∉ d.map Prod.fst := by
        rw [List.nodup_append] at hnd
        intro hm
        exact hnd.2.2 _ hm _ (by simp) rfl
      have hd : dictSet d k.name v = d ++ [(k.name, v)] := by rw [dictSet, if_neg hk]
      rw [hd] at h3
      rw [h3 (by simpa using hnd), List.append_assoc]
      rfl

theorem iter_rows {kinds : List Kind} (hk : kinds.Nodup) {maxTime : ℝ} {r : Rep σ W μ V} (hr : r.ms.map Prod.fst = kinds) :
    match iter o m t maxTime r with
    | .raised _ r' => r'.lines = r.lines
    | .next r' | .brk r' => r'.ms.map Prod.fst = kinds ∧ ∃ row vals, r'.lines = r.lines ++ [row] ∧ Holds o t kinds row vals := by
  unfold iter
  dsimp only
  generalize m.sample t.obj r.n (maxTime - r.samplingTime) r.obj (each o.pre r.ms r.w).2 = sm
  obtain ⟨x, s, w⟩ := sm
  cases x with
  | error e => exact rfl
  | ok k =>
    dsimp only
    generalize hms : each o.post (each o.pre r.ms r.w).1 w = q
    have hq : q.1.map Prod.fst = kinds := by rw [← hms, each_kinds, each_kinds, hr]
    generalize hcm : computeAll o t.obj q.1 [] s q.2 = cm
    obtain ⟨y, ms, s', w'⟩ := cm
    cases y with
    | error e => exact rfl
    | ok d =>
      dsimp only
      obtain ⟨h1, vals, h2, h3⟩ := computeAll_ok hcm
      have hnames : (q.1.map fun e => e.1.name) = kinds.map Kind.name := by rw [← hq, List.map_map]; rfl
      have h4 := h3 (by rw [hnames]; simpa using (List.nodup_map_iff name_inj).2 hk)
      rw [hnames, List.nil_append] at h4
      cases m.report s' with
      | error e => exact rfl
      | ok rep =>
        dsimp only
        have hrow : Holds o t kinds ⟨t.dims, k, d, rep, t.name⟩ vals := ⟨⟨_, _, _, hq, h2⟩, h4, rfl⟩
        split
        · rename_i e
          split at e <;> cases e
        · rename_i r1 e
          have : r1 = ⟨s', w', ms, k, k + t.batch, r.samplingTime, true, r.lines ++ [⟨t.dims, k, d, rep, t.name⟩]⟩ := by
            split at e <;> cases e; rfl
          subst this
          exact ⟨h1.trans hq, _, vals, rfl, hrow⟩
        · rename_i r1 e
          have : r1 = ⟨s', w', ms, k, k + t.batch, r.samplingTime, true, r.lines ++ [⟨t.dims, k, d, rep, t.name⟩]⟩ := by
            split at e <;> cases e; rfl
          subst this
          exact ⟨h1.trans hq, _, vals, rfl, hrow⟩

/-- All lines so far are of that form. -/
def AllHold (o : Ops T σ W μ V) (t : Target T) (kinds : List Kind) (r : Rep σ W μ V) : Prop :=
  ∀ row ∈ r.lines, ∃ vals, Holds o t kinds row vals

theorem loop_rows {kinds : List Kind} (hk : kinds.Nodup) {maxTime : ℝ} (fuel : ℕ) : ∀ {r : Rep σ W μ V},
    r.ms.map Prod.fst = kinds → AllHold o t kinds r →
    (loop o m t maxTime fuel r).Sat (fun r => r.ms.map Prod.fst = kinds ∧ AllHold o t kinds r) (AllHold o t kinds)
      (AllHold o t kinds) := by
  induction fuel with
  | zero =>
    intro r h1 h2
    unfold loop
    split
    · exact h2
    · exact ⟨h1, h2⟩
  | succ n ih =>
    intro r h1 h2
    unfold loop
    split
    · have hi := iter_rows (o := o) (m := m) (t := t) hk (maxTime := maxTime) h1
      have hadd : ∀ r' : Rep σ W μ V, (∃ row vals, r'.lines = r.lines ++ [row] ∧ Holds o t kinds row vals) →
          AllHold o t kinds r' := by
        rintro r' ⟨row, vals, h3, h4⟩ x hx
        rw [h3, List.mem_append, List.mem_singleton] at hx
        rcases hx with hx | rfl
        · exact h2 x hx
        · exact ⟨vals, h4⟩
      generalize iter o m t maxTime r = st at hi
      cases st with
      | next r' => exact ih hi.1 (hadd r' hi.2)
      | brk r' => exact ⟨hi.1, hadd r' hi.2⟩
      | raised e r' => exact fun x hx => h2 x (hi ▸ hx)
    · exact ⟨h1, h2⟩

theorem evaluate_rows {c : Config} {kinds : List Kind} (hc : c.metrics.filterMap Kind.ofConfig = kinds) (hk : kinds.Nodup)
    {fuel : ℕ} {s : σ} {w : W} : AllHold o t kinds (evaluate o c m t fuel s w).state := by
  unfold evaluate
  dsimp only
  refine Out.Sat.state (I := AllHold o t kinds) ((forN_inv (fun _ r => r.ms.map Prod.fst = kinds ∧ AllHold o t kinds r)
    (AllHold o t kinds) (AllHold o t kinds) c.nReps ?_ _ ⟨?_, by intro x hx; cases hx⟩).mono (fun _ h => h.2) (fun _ h => h)
    (fun _ h => h))
  · rintro i - r ⟨h1, h2⟩
    unfold repetition
    generalize m.reset r.obj r.w = rs
    obtain ⟨x, s, w⟩ := rs
    cases x with
    | some e => exact h2
    | none =>
      dsimp only
      have hL := loop_rows (o := o) (m := m) (t := t) hk (maxTime := c.maxTime) fuel
        (r := { r with obj := s, w := (each o.reset r.ms w).2, ms := (each o.reset r.ms w).1, acc := 0, n := t.batch, samplingTime := 0 })
        (by dsimp only; rw [each_kinds, h1]) h2
      generalize loop o m t c.maxTime fuel _ = L at hL
      cases L with
      | running r' => exact hL
      | raised e r' => exact hL
      | done r' =>
        dsimp only
        unfold finish
        split
        · exact hL.2
        · split
          · exact hL
          · exact hL.2
  · dsimp only; rw [newMetrics_kinds, hc]

theorem ComputedBy.length {ms : List (Kind × μ)} {s : σ} {w : W} {vals : List V} {t : T} (h : ComputedBy o t ms s w vals) :
    vals.length = ms.length := by
  induction h with
  | nil => rfl
  | cons _ _ ih => simp [ih]

theorem Holds.length {kinds : List Kind} {row : Row V} {vals : List V} (h : Holds o t kinds row vals) :
    vals.length = kinds.length := by
  obtain ⟨ms, s, w, h1, h2⟩ := h.computed
  rw [h2.length, ← h1, List.length_map]

theorem Holds.map {kinds : List Kind} {row : Row V} {vals : List V} (h : Holds o t kinds row vals) (f : V → List Char) :
    row.values.map (fun e => f e.2) = vals.map f := by
  rw [h.values]
  have : (fun e : String × V => f e.2) = f ∘ Prod.snd := rfl
  rw [this, ← List.map_map, List.map_snd_zip (by simp [h.length])]

/-- The metrics `evaluate_method` knows. -/
def known : List String := ["KLD", "JSD", "EVMSE", "T", "MEM"]

theorem known_word : ∀ x ∈ known, Word x.toList := by
  unfold known Word; decide

theorem known_kinds : ∀ {metrics : List String}, (∀ x ∈ metrics, x ∈ known) → metrics.Nodup →
    (metrics.filterMap Kind.ofConfig).Nodup ∧ (metrics.filterMap Kind.ofConfig).length = metrics.length := by
  intro metrics hk hn
  have hsome : ∀ x ∈ known, ∃ k, Kind.ofConfig x = some k := by
    intro x hx
    simp only [known, List.mem_cons, List.not_mem_nil, or_false] at hx
    rcases hx with rfl | rfl | rfl | rfl | rfl <;> exact ⟨_, rfl⟩
  have hinj : ∀ x ∈ known, ∀ y ∈ known, Kind.ofConfig x = Kind.ofConfig y → x = y := by unfold known; decide
  induction metrics with
  | nil => simp
  | cons x ms ih =>
    obtain ⟨k, hkx⟩ := hsome x (hk x (by simp))
    rw [List.nodup_cons] at hn
    obtain ⟨h1, h2⟩ := ih (fun y hy => hk y (List.mem_cons_of_mem _ hy)) hn.2
    rw [List.filterMap_cons_some hkx]
    refine ⟨List.nodup_cons.2 ⟨?_, h1⟩, by simp [h2]⟩
    intro hm
    obtain ⟨y, hy, hky⟩ := List.mem_filterMap.1 hm
    have := hinj x (hk x (by simp)) y (hk y (List.mem_cons_of_mem _ hy)) (hkx.trans hky.symm)
    exact hn.1 (this ▸ hy)

/-! ### C63 -/

/-- **C63**, what holds: if the metrics are known ones other than NESS, without repetitions, the names of method and target
are words and the number printed for NESS has at most eight characters, then header and line have the same number of
fields, the header names the metrics in order from the third column on, and the line has there the values these metrics
computed. -/
theorem C63_partial {c : Config} (hk : ∀ x ∈ c.metrics, x ∈ known) (hn : c.metrics.Nodup) {F : Fmt V} (hF : F.Ok)
    {fuel : ℕ} {s : σ} {w : W} {row : Row V} (hrow : row ∈ (evaluate o c m t fuel s w).state.lines)
    (hname : Word row.report.name.toList) (ht : Word t.name.toList) (hw : (F.dec 3 row.report.ness).length ≤ 8) :
    ∃ vals : List V, vals.length = c.metrics.length ∧
      (∃ ms s w, ms.map Prod.fst = c.metrics.filterMap Kind.ofConfig ∧ ComputedBy o t.obj ms s w vals) ∧
      fields (header c.metrics) =
        ["dims".toList, "output_samples".toList] ++ c.metrics.map String.toList ++ tailColumns ∧
      fields (rowText F row) = [zpad 2 (F.nat row.dims), zpad 4 (F.nat row.nsamples)] ++ vals.map (F.dec 5) ++
        F.dec 3 row.report.ness :: tailFields F row ∧
      (fields (rowText F row)).length = (fields (header c.metrics)).length := by
  obtain ⟨h1, h2⟩ := known_kinds hk hn
  obtain ⟨vals, hv⟩ := evaluate_rows rfl h1 row hrow
  have e1 := fields_header (metrics := c.metrics) fun x hx => known_word x (hk x hx)
  have e2 := fields_row hF hname (by rw [hv.target]; exact ht) (.inr hw)
  rw [hv.map (F.dec 5)] at e2
  refine ⟨vals, hv.length.trans h2, hv.computed, e1, e2, ?_⟩
  rw [e1, e2]
  simp [tailFields, tailColumns, hv.length, h2]

/-- The code violates **C63** for the metrics that `evaluate_method` has as default: every line of every evaluation has
fewer fields than the header, since the column announced for the metric NESS is not written. -/
theorem C63_refuted {c : Config} (hc : c.metrics = ["NESS", "JSD", "T"]) {F : Fmt V} (hF : F.Ok)
    {fuel : ℕ} {s : σ} {w : W} {row : Row V} (hrow : row ∈ (evaluate o c m t fuel s w).state.lines)
    (hname : Word row.report.name.toList) (ht : Word t.name.toList) (hw : (F.dec 3 row.report.ness).length ≤ 8) :
    (fields (rowText F row)).length < (fields (header c.metrics)).length := by
  obtain ⟨vals, hv⟩ := evaluate_rows (kinds := [.jsd, .time]) (by rw [hc]; rfl) (by decide) row hrow
  have e2 := fields_row hF hname (by rw [hv.target]; exact ht) (.inr hw)
  rw [hv.map (F.dec 5)] at e2
  rw [e2, hc, fields_header (by unfold Word; decide)]
  simp [tailFields, tailColumns, hv.length]

/-- And for any list of one or more known metrics, if the number printed for NESS has more than eight characters: it is
written right after the last metric, without a blank. -/
theorem C63_refuted_width {c : Config} (hk : ∀ x ∈ c.metrics, x ∈ known) (hn : c.metrics.Nodup) (hne : c.metrics ≠ [])
    {F : Fmt V} (hF : F.Ok) {fuel : ℕ} {s : σ} {w : W} {row : Row V}
    (hrow : row ∈ (evaluate o c m t fuel s w).state.lines)
    (hname : Word row.report.name.toList) (ht : Word t.name.toList) (hw : 9 ≤ (F.dec 3 row.report.ness).length) :
    (fields (rowText F row)).length < (fields (header c.metrics)).length := by
  obtain ⟨h1, h2⟩ := known_kinds hk hn
  obtain ⟨vals, hv⟩ := evaluate_rows rfl h1 row hrow
  have e1 := fields_header (metrics := c.metrics) fun x hx => known_word x (hk x hx)
  have hlen : row.values.length = c.metrics.length := by
    rw [hv.values, List.length_zip, List.length_map, hv.length, h2, Nat.min_self]
  have hvne : row.values ≠ [] := by
    intro h; rw [h] at hlen; exact hne (List.length_eq_zero_iff.1 hlen.symm)
  have hsplit := (List.dropLast_append_getLast hvne).symm
  have e2 := fields_row_glued hF hname (by rw [hv.target]; exact ht) hsplit hw
  have hl3 : row.values.dropLast.length + 1 = c.metrics.length := by
    rw [List.length_dropLast, hlen]
    have := List.length_pos_iff.2 hne
    omega
  rw [e1, e2]
  simp [tailFields, tailColumns]
  rw [List.length_dropLast] at hl3
  omega

/-! ### Examples -/

/-- Numbers in unary, all decimals shown as 0.500. -/
def exFmt : Fmt ℚ := ⟨fun n => List.replicate (n + 1) '1', fun _ _ => "0.500".toList⟩

theorem exFmt_ok : exFmt.Ok :=
  ⟨fun n => ⟨by simp [exFmt], by simp [exFmt, List.mem_replicate]⟩, fun _ _ => by
    show Word "0.500".toList
    unfold Word; decide⟩

/-- An evaluation with six lines that meets the hypotheses of `C63_partial`. -/
example : ∀ row ∈ (evaluate idleN ⟨["T"], 0, 2, 5⟩ obliging ⟨(), 1, "target", 25, 10⟩ 3 0 0).state.lines,
    (fields (rowText exFmt row)).length = (fields (header ["T"])).length := by
  obtain ⟨r, h, h1, -⟩ := obliging_run
  have hrep : ∀ row ∈ r.lines, row.report.name = "obliging" := by
    have h' := h
    simp [evaluate, forN, repetition, loop, iter, each, newMetrics, computeAll, obliging, idleN, finish, Kind.ofConfig,
      show ¬ (5 : ℝ) < 0 by norm_num] at h'
    subst h'
    simp
  intro row hrow
  refine (C63_partial (c := ⟨["T"], 0, 2, 5⟩) (by decide) (by decide) exFmt_ok hrow ?_ (by unfold Word; decide)
    (by show "0.500".toList.length ≤ 8; decide)).elim fun _ h => h.2.2.2.2
  rw [h] at hrow
  rw [hrep row hrow]
  unfold Word; decide

/-- A line with its fields. -/
example : fields "01 0010   0.12345    0.500 m t 1.000 1 2 3".toList =
    ["01", "0010", "0.12345", "0.500", "m", "t", "1.000", "1", "2", "3"].map String.toList := by decide

end Bench
end Verif
