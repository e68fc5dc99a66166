import Verif.Props.Benchmark
import Verif.Props.Rejection
import Mathlib.Data.List.Forall2

/-!
# Property C127: a benchmark can be repeated
-/

set_option linter.unusedSectionVars false
set_option autoImplicit false

namespace Verif
namespace Bench

variable {T σ W μ V : Type*}

/-! ### Specification -/

/-- The metrics that measure the machine: elapsed time and memory. -/
def Kind.timed : Kind → Bool
  | .time => true
  | .memory => true
  | _ => false

/-- Two rows with the same columns that agree except possibly in the columns `time` and `memory`. -/
structure SameRow (a b : Row V) : Prop where
  dims : a.dims = b.dims
  nsamples : a.nsamples = b.nsamples
  report : a.report = b.report
  target : a.target = b.target
  values : List.Forall₂ (fun x y : String × V => x.1 = y.1 ∧ (x.1 ≠ "time" → x.1 ≠ "memory" → x.2 = y.2)) a.values b.values

/-- Two runs that end in the same way (returned, raised the same exception, still running) and wrote the same rows except
possibly for the columns `time` and `memory`. -/
def SameRun : Out (W × List (Row V)) → Out (W × List (Row V)) → Prop
  | .done p, .done q => List.Forall₂ SameRow p.2 q.2
  | .raised e p, .raised e' q => e = e' ∧ List.Forall₂ SameRow p.2 q.2
  | .running p, .running q => List.Forall₂ SameRow p.2 q.2
  | _, _ => False

/-- What the metrics and `np.random.seed` have to satisfy, where `R w w'` says that the two worlds have the same random
generator (clock and memory use may differ). Seeding sets the whole generator. Metrics other than time and
memory behave equally in worlds with the same generator; time and memory may yield any number, but they do not
raise and touch neither the method nor the generator. -/
structure Measures (R : W → W → Prop) (o : Ops T σ W μ V) : Prop where
  seed : ∀ k w w', R (o.seed k w) (o.seed k w')
  new : ∀ k w w', R w w' → R (o.new k w).2 (o.new k w').2 ∧ (k.timed = false → (o.new k w).1 = (o.new k w').1)
  reset : ∀ k m m' w w', (k.timed = false → m = m') → R w w' →
    R (o.reset k m w).2 (o.reset k m' w').2 ∧ (k.timed = false → (o.reset k m w).1 = (o.reset k m' w').1)
  pre : ∀ k m m' w w', (k.timed = false → m = m') → R w w' →
    R (o.pre k m w).2 (o.pre k m' w').2 ∧ (k.timed = false → (o.pre k m w).1 = (o.pre k m' w').1)
  post : ∀ k m m' w w', (k.timed = false → m = m') → R w w' →
    R (o.post k m w).2 (o.post k m' w').2 ∧ (k.timed = false → (o.post k m w).1 = (o.post k m' w').1)
  compute : ∀ t k m s w w', k.timed = false → R w w' →
    (o.compute t k m s w).1 = (o.compute t k m s w').1 ∧ (o.compute t k m s w).2.1 = (o.compute t k m s w').2.1 ∧
    (o.compute t k m s w).2.2.1 = (o.compute t k m s w').2.2.1 ∧ R (o.compute t k m s w).2.2.2 (o.compute t k m s w').2.2.2
  timed : ∀ t k m m' s w w', k.timed = true → R w w' →
    (∃ v, (o.compute t k m s w).1 = .ok v) ∧ (∃ v, (o.compute t k m' s w').1 = .ok v) ∧
    (o.compute t k m s w).2.2.1 = s ∧ (o.compute t k m' s w').2.2.1 = s ∧
    R (o.compute t k m s w).2.2.2 (o.compute t k m' s w').2.2.2

/-- What a method has to satisfy: in worlds with the same generator it behaves equally. In particular no call of it is ended
by its time limit in one world and not in the other. -/
structure ClockFree (R : W → W → Prop) (m : Method T σ W V) : Prop where
  new : ∀ t w w', R w w' → (m.new t w).1 = (m.new t w').1 ∧ R (m.new t w).2 (m.new t w').2
  reset : ∀ s w w', R w w' → (m.reset s w).1 = (m.reset s w').1 ∧ (m.reset s w).2.1 = (m.reset s w').2.1 ∧
    R (m.reset s w).2.2 (m.reset s w').2.2
  sample : ∀ t n lim s w w', R w w' → (m.sample t n lim s w).1 = (m.sample t n lim s w').1 ∧
    (m.sample t n lim s w).2.1 = (m.sample t n lim s w').2.1 ∧ R (m.sample t n lim s w).2.2 (m.sample t n lim s w').2.2

/-! ### Proof: the two runs stay in step -/

section Sim

variable {R : W → W → Prop} {o : Ops T σ W μ V} {m : Method T σ W V} {t : Target T}

/-- Metrics of the same classes, in the same state unless they measure the machine. -/
def SimMs (a b : List (Kind × μ)) : Prop :=
  List.Forall₂ (fun x y : Kind × μ => x.1 = y.1 ∧ (x.1.timed = false → x.2 = y.2)) a b

/-- Dictionaries of results. -/
abbrev SimVals (a b : List (String × V)) : Prop :=
  List.Forall₂ (fun x y : String × V => x.1 = y.1 ∧ (x.1 ≠ "time" → x.1 ≠ "memory" → x.2 = y.2)) a b

/-- States of two evaluations in step. -/
structure Sim (R : W → W → Prop) (r r' : Rep σ W μ V) : Prop where
  obj : r.obj = r'.obj
  w : R r.w r'.w
  ms : SimMs r.ms r'.ms
  acc : r.acc = r'.acc
  n : r.n = r'.n
  time : r.samplingTime = r'.samplingTime
  bound : r.bound = r'.bound
  lines : List.Forall₂ SameRow r.lines r'.lines

/-- Outcomes of two executions in step. -/
def SimOut {α : Type*} (P : α → α → Prop) : Out α → Out α → Prop
  | .done r, .done r' => P r r'
  | .raised e r, .raised e' r' => e = e' ∧ P r r'
  | .running r, .running r' => P r r'
  | _, _ => False

theorem sim_new (ho : Measures R o) : ∀ (ms : List String) {w w' : W}, R w w' →
    SimMs (newMetrics o ms w).1 (newMetrics o ms w').1 ∧ R (newMetrics o ms w).2 (newMetrics o ms w').2
  | [], w, w', h => ⟨.nil, h⟩
  | x :: ms, w, w', h => by
    unfold newMetrics
    cases Kind.ofConfig x with
    | none => exact sim_new ho ms h
    | some k =>
      obtain ⟨h1, h2⟩ := ho.new k w w' h
      obtain ⟨h3, h4⟩ := sim_new ho ms h1
      exact ⟨.cons ⟨rfl, h2⟩ h3, h4⟩

theorem sim_each {f : Kind → μ → W → μ × W}
    (hf : ∀ k m m' w w', (k.timed = false → m = m') → R w w' →
      R (f k m w).2 (f k m' w').2 ∧ (k.timed = false → (f k m w).1 = (f k m' w').1)) :
    ∀ {a b : List (Kind × μ)}, SimMs a b → ∀ {w w' : W}, R w w' →
      SimMs (each f a w).1 (each f b w').1 ∧ R (each f a w).2 (each f b w').2 := by
  intro a b h
  induction h with
  | nil => intro w w' hw; exact ⟨.nil, hw⟩
  | @cons x y a b hxy _ ih =>
    intro w w' hw
    obtain ⟨k, x⟩ := x
    obtain ⟨k', y⟩ := y
    obtain ⟨rfl, hm⟩ := hxy
    obtain ⟨h1, h2⟩ := hf k x y w w' hm hw
    obtain ⟨h3, h4⟩ := ih h1
    exact ⟨.cons ⟨rfl, h2⟩ h3, h4⟩

theorem sim_keys {a b : List (String × V)} (h : SimVals a b) : a.map Prod.fst = b.map Prod.fst := by
  induction h with
  | nil => rfl
  | cons h _ ih => simp only [List.map_cons, h.1, ih]

theorem sim_dictSet {a b : List (String × V)} (h : SimVals a b) (key : String) {v v' : V}
    (hv : key ≠ "time" → key ≠ "memory" → v = v') : SimVals (dictSet a key v) (dictSet b key v') := by
  unfold dictSet
  rw [sim_keys h]
  split_ifs
  · rename_i hmem
    clear hmem
    induction h with
    | nil => exact .nil
    | @cons x y a b hxy _ ih =>
      refine .cons ?_ ih
      dsimp only
      rw [hxy.1]
      split_ifs with hk
      · exact ⟨rfl, hv⟩
      · exact ⟨hxy.1, hxy.2⟩
  · exact List.rel_append h (.cons ⟨rfl, hv⟩ .nil)

theorem timed_name {k : Kind} (h1 : k.name ≠ "time") (h2 : k.name ≠ "memory") : k.timed = false := by
  cases k <;> simp_all [Kind.name, Kind.timed]

theorem sim_computeAll (ho : Measures R o) : ∀ {a b : List (Kind × μ)}, SimMs a b → ∀ {d d' : List (String × V)},
    SimVals d d' → ∀ (s : σ) {w w' : W}, R w w' →
    (match (computeAll o t.obj a d s w).1, (computeAll o t.obj b d' s w').1 with
      | .ok x, .ok y => SimVals x y
      | .error e, .error e' => e = e'
      | _, _ => False) ∧
    SimMs (computeAll o t.obj a d s w).2.1 (computeAll o t.obj b d' s w').2.1 ∧
    (computeAll o t.obj a d s w).2.2.1 = (computeAll o t.obj b d' s w').2.2.1 ∧
    R (computeAll o t.obj a d s w).2.2.2 (computeAll o t.obj b d' s w').2.2.2 := by
  intro a b h
  induction h with
  | nil => intro d d' hd s w w' hw; exact ⟨hd, .nil, rfl, hw⟩
  | @cons x y a b hxy hab ih =>
    intro d d' hd s w w' hw
    obtain ⟨k, x⟩ := x
    obtain ⟨k', y⟩ := y
    obtain ⟨hk, hm⟩ := hxy
    obtain rfl : k = k' := hk
    simp only at hm
    unfold computeAll
    by_cases hT : k.timed = false
    · obtain rfl := hm hT
      obtain ⟨c1, c2, c3, c4⟩ := ho.compute t.obj k x s w w' hT hw
      rcases he : o.compute t.obj k x s w with ⟨r, m1, s1, w1⟩
      rcases he' : o.compute t.obj k x s w' with ⟨r', m1', s1', w1'⟩
      rw [he, he'] at c1 c2 c3 c4
      simp only at c1 c2 c3 c4
      subst c1 c2 c3
      cases r with
      | error e => exact ⟨rfl, .cons ⟨rfl, fun _ => rfl⟩ hab, rfl, c4⟩
      | ok v =>
        obtain ⟨i1, i2, i3⟩ := ih (sim_dictSet hd k.name (v := v) fun _ _ => rfl) s1 c4
        exact ⟨i1, .cons ⟨rfl, fun _ => rfl⟩ i2, i3⟩
    · obtain ⟨⟨v, c1⟩, ⟨v', c2⟩, c3, c4, c5⟩ := ho.timed t.obj k x y s w w' (by simpa using hT) hw
      rcases he : o.compute t.obj k x s w with ⟨r, m1, s1, w1⟩
      rcases he' : o.compute t.obj k y s w' with ⟨r', m1', s1', w1'⟩
      rw [he] at c1 c3 c5
      rw [he'] at c2 c4 c5
      simp only at c1 c2 c3 c4 c5
      subst c1 c2 c3 c4
      obtain ⟨i1, i2, i3⟩ := ih (sim_dictSet hd k.name (v := v) (v' := v') fun h1 h2 => absurd (timed_name h1 h2) hT) s1' c5
      exact ⟨i1, .cons ⟨rfl, fun h => absurd h hT⟩ i2, i3⟩

/-- Steps of two evaluations in step. -/
def SimStep (R : W → W → Prop) : Step (Rep σ W μ V) → Step (Rep σ W μ V) → Prop
  | .next r, .next r' => Sim R r r'
  | .brk r, .brk r' => Sim R r r'
  | .raised e r, .raised e' r' => e = e' ∧ Sim R r r'
  | _, _ => False

theorem sim_iter (ho : Measures R o) (hm : ClockFree R m) (maxTime : ℝ) {r r' : Rep σ W μ V} (h : Sim R r r') :
    SimStep R (iter o m t maxTime r) (iter o m t maxTime r') := by
  obtain ⟨obj, w, ms, acc, n, st, bd, ln⟩ := r
  obtain ⟨obj', w', ms', acc', n', st', bd', ln'⟩ := r'
  obtain ⟨h1, h2, h3, h4, h5, h6, h7, h8⟩ := h
  simp only at h1 h2 h3 h4 h5 h6 h7 h8
  subst h1 h4 h5 h6 h7
  unfold iter
  simp only
  obtain ⟨p1, p2⟩ := sim_each ho.pre h3 h2
  obtain ⟨s1, s2, s3⟩ := hm.sample t.obj n (maxTime - st) obj _ _ p2
  rcases he : m.sample t.obj n (maxTime - st) obj (each o.pre ms w).2 with ⟨k, s, v⟩
  rcases he' : m.sample t.obj n (maxTime - st) obj (each o.pre ms' w').2 with ⟨k', s', v'⟩
  rw [he, he'] at s1 s2 s3
  simp only at s1 s2 s3
  subst s1 s2
  cases k with
  | error e => exact ⟨rfl, rfl, s3, p1, rfl, rfl, rfl, rfl, h8⟩
  | ok k =>
    simp only
    obtain ⟨q1, q2⟩ := sim_each ho.post p1 s3
    obtain ⟨c1, c2, c3, c4⟩ := sim_computeAll (t := t) ho q1 (d := []) (d' := []) .nil s q2
    rcases hc : computeAll o t.obj (each o.post (each o.pre ms w).1 v).1 [] s (each o.post (each o.pre ms w).1 v).2
      with ⟨x, ms1, s1, w1⟩
    rcases hc' : computeAll o t.obj (each o.post (each o.pre ms' w').1 v').1 [] s (each o.post (each o.pre ms' w').1 v').2
      with ⟨x', ms1', s1', w1'⟩
    rw [hc, hc'] at c1 c2 c3 c4
    simp only at c2 c3 c4
    subst c3
    cases x with
    | error e =>
      cases x' with
      | ok y => exact absurd c1 id
      | error e' => exact ⟨c1, rfl, c4, c2, rfl, rfl, rfl, rfl, h8⟩
    | ok x =>
      cases x' with
      | error e' => exact absurd c1 id
      | ok y =>
        simp only at c1 ⊢
        cases m.report s1 with
        | error e => exact ⟨rfl, rfl, c4, c2, rfl, rfl, rfl, rfl, h8⟩
        | ok rep =>
          have hl : List.Forall₂ SameRow (ln ++ [⟨t.dims, k, x, rep, t.name⟩]) (ln' ++ [⟨t.dims, k, y, rep, t.name⟩]) :=
            List.rel_append h8 (.cons ⟨rfl, rfl, rfl, rfl, c1⟩ .nil)
          simp only
          split_ifs
          · exact ⟨rfl, c4, c2, rfl, rfl, rfl, rfl, hl⟩
          · exact ⟨rfl, c4, c2, rfl, rfl, rfl, rfl, hl⟩

theorem sim_loop (ho : Measures R o) (hm : ClockFree R m) (maxTime : ℝ) : ∀ (fuel : ℕ) {r r' : Rep σ W μ V}, Sim R r r' →
    SimOut (Sim R) (loop o m t maxTime fuel r) (loop o m t maxTime fuel r')
  | 0, r, r', h => by
    unfold loop
    rw [h.acc]
    split_ifs <;> exact h
  | fuel + 1, r, r', h => by
    unfold loop
    rw [h.acc]
    split_ifs
    · have hi := sim_iter (t := t) ho hm maxTime h
      revert hi
      cases iter o m t maxTime r <;> cases iter o m t maxTime r' <;> intro hi <;> first
        | exact sim_loop ho hm maxTime fuel hi
        | exact hi
        | exact absurd hi id
    · exact h

theorem sim_repetition (ho : Measures R o) (hm : ClockFree R m) (maxTime : ℝ) (fuel : ℕ) {r r' : Rep σ W μ V}
    (h : Sim R r r') : SimOut (Sim R) (repetition o m t maxTime fuel r) (repetition o m t maxTime fuel r') := by
  unfold repetition
  rw [h.obj]
  obtain ⟨s1, s2, s3⟩ := hm.reset r'.obj r.w r'.w h.w
  rcases he : m.reset r'.obj r.w with ⟨k, s, v⟩
  rcases he' : m.reset r'.obj r'.w with ⟨k', s', v'⟩
  rw [he, he'] at s1 s2 s3
  simp only at s1 s2 s3
  subst s1 s2
  cases k with
  | some e => exact ⟨rfl, rfl, s3, h.ms, h.acc, h.n, rfl, h.bound, h.lines⟩
  | none =>
    simp only
    obtain ⟨q1, q2⟩ := sim_each ho.reset h.ms s3
    have hl := sim_loop (t := t) ho hm maxTime fuel
      (r := { r with obj := s, w := (each o.reset r.ms v).2, ms := (each o.reset r.ms v).1, acc := 0, n := t.batch, samplingTime := 0 })
      (r' := { r' with obj := s, w := (each o.reset r'.ms v').2, ms := (each o.reset r'.ms v').1, acc := 0, n := t.batch, samplingTime := 0 }) ⟨rfl, q2, q1, rfl, rfl, rfl, h.bound, h.lines⟩
    revert hl
    generalize loop o m t maxTime fuel _ = x
    generalize loop o m t maxTime fuel _ = y
    intro hl
    cases x <;> cases y <;> first
      | exact absurd hl id
      | exact hl
      | skip
    rename_i a b
    have hl : Sim R a b := hl
    simp only [finish, hl.bound]
    split_ifs
    · exact ⟨rfl, hl⟩
    · exact hl
    · exact ⟨rfl, hl⟩

theorem sim_forN {α : Type*} {P : α → α → Prop} {f : ℕ → α → Out α}
    (hf : ∀ i a b, P a b → SimOut P (f i a) (f i b)) : ∀ (n : ℕ) {a b : α}, P a b → SimOut P (forN f n a) (forN f n b)
  | 0, a, b, h => h
  | n + 1, a, b, h => by
    have ih := sim_forN hf n h
    unfold forN
    revert ih
    cases forN f n a <;> cases forN f n b <;> intro ih <;> first
      | exact absurd ih id
      | exact hf _ _ _ ih
      | exact ih

theorem sim_evaluate (ho : Measures R o) (hm : ClockFree R m) (c : Config) (fuel : ℕ) (s : σ) {w w' : W}
    (h : R w w') : SimOut (Sim R) (evaluate o c m t fuel s w) (evaluate o c m t fuel s w') := by
  unfold evaluate
  have hs : R (if 0 ≤ c.rseed then o.seed c.rseed.toNat w else w) (if 0 ≤ c.rseed then o.seed c.rseed.toNat w' else w') := by
    split_ifs
    · exact ho.seed _ _ _
    · exact h
  obtain ⟨n1, n2⟩ := sim_new ho c.metrics hs
  exact sim_forN (fun _ _ _ hr => sim_repetition ho hm c.maxTime fuel hr) c.nReps ⟨rfl, n2, n1, rfl, rfl, rfl, rfl, .nil⟩

theorem sim_load : ∀ {ms : List (Method T σ W V)}, (∀ m ∈ ms, ClockFree R m) → ∀ (t : T) {w w' : W}, R w w' →
    (loadMethods t ms w).1 = (loadMethods t ms w').1 ∧ R (loadMethods t ms w).2 (loadMethods t ms w').2
  | [], _, t, w, w', h => ⟨rfl, h⟩
  | m :: ms, hm, t, w, w', h => by
    obtain ⟨n1, n2⟩ := (hm m List.mem_cons_self).new t w w' h
    unfold loadMethods
    rcases he : m.new t w with ⟨x, v⟩
    rcases he' : m.new t w' with ⟨x', v'⟩
    rw [he, he'] at n1 n2
    simp only at n1 n2
    subst n1
    cases x with
    | error e => exact ⟨rfl, n2⟩
    | ok s =>
      simp only
      obtain ⟨i1, i2⟩ := sim_load (fun m h => hm m (List.mem_cons_of_mem _ h)) t n2
      rcases hl : loadMethods t ms v with ⟨y, u⟩
      rcases hl' : loadMethods t ms v' with ⟨y', u'⟩
      rw [hl, hl'] at i1 i2
      simp only at i1 i2
      subst i1
      cases y <;> exact ⟨rfl, i2⟩

theorem load_mem {t : T} : ∀ {ms : List (Method T σ W V)} {w w' : W} {l : List (Method T σ W V × σ)},
    loadMethods t ms w = (.ok l, w') → ∀ x ∈ l, x.1 ∈ ms
  | [], w, w', l, h => by cases h; simp
  | m :: ms, w, w', l, h => by
    unfold loadMethods at h
    rcases he : m.new t w with ⟨x, v⟩
    rw [he] at h
    cases x with
    | error e => cases h
    | ok s =>
      simp only at h
      rcases hl : loadMethods t ms v with ⟨y, u⟩
      rw [hl] at h
      cases y with
      | error e => cases h
      | ok l' =>
        cases h
        intro x hx
        rcases List.mem_cons.1 hx with rfl | hx
        · exact List.mem_cons_self
        · exact List.mem_cons_of_mem _ (load_mem hl x hx)

/-- World and file of two runs in step. -/
def SimFile (R : W → W → Prop) (p q : W × List (Row V)) : Prop := R p.1 q.1 ∧ List.Forall₂ SameRow p.2 q.2

theorem sim_runMethods (ho : Measures R o) (c : Config) (fuel : ℕ) :
    ∀ {ms : List (Method T σ W V × σ)}, (∀ x ∈ ms, ClockFree R x.1) → ∀ {p q : W × List (Row V)}, SimFile R p q →
      SimOut (SimFile R) (runMethods o c fuel t ms p) (runMethods o c fuel t ms q)
  | [], _, p, q, h => h
  | (m, s) :: ms, hm, p, q, h => by
    have hm1 := hm (m, s) List.mem_cons_self
    obtain ⟨s1, s2, s3⟩ := hm1.reset s p.1 q.1 h.1
    unfold runMethods
    rcases he : m.reset s p.1 with ⟨k, s, v⟩
    rcases he' : m.reset _ q.1 with ⟨k', s', v'⟩
    rw [he, he'] at s1 s2 s3
    simp only at s1 s2 s3
    subst s1 s2
    cases k with
    | some e => exact ⟨rfl, s3, h.2⟩
    | none =>
      have hv := sim_evaluate (t := t) ho hm1 c fuel s s3
      revert hv
      simp only
      cases evaluate o c m t fuel s v <;> cases evaluate o c m t fuel s v' <;> intro hv <;> first
        | exact absurd hv id
        | exact sim_runMethods ho c fuel (fun x h => hm x (List.mem_cons_of_mem _ h)) ⟨Sim.w hv, List.rel_append h.2 (Sim.lines hv)⟩
        | exact ⟨hv.1, hv.2.w, List.rel_append h.2 hv.2.lines⟩
        | exact ⟨Sim.w hv, List.rel_append h.2 (Sim.lines hv)⟩

theorem sim_runTargets (ho : Measures R o) (c : Config) (fuel : ℕ) {methods : List (Method T σ W V)}
    (hm : ∀ m ∈ methods, ClockFree R m) : ∀ (ts : List (Target T)) {p q : W × List (Row V)}, SimFile R p q →
      SimOut (SimFile R) (runTargets o c fuel methods ts p) (runTargets o c fuel methods ts q)
  | [], p, q, h => h
  | t :: ts, p, q, h => by
    obtain ⟨l1, l2⟩ := sim_load hm t.obj h.1
    unfold runTargets
    rcases he : loadMethods t.obj methods p.1 with ⟨x, v⟩
    rcases he' : loadMethods t.obj methods q.1 with ⟨x', v'⟩
    rw [he, he'] at l1 l2
    simp only at l1 l2
    subst l1
    cases x with
    | error e => exact ⟨rfl, l2, h.2⟩
    | ok ms =>
      have hr := sim_runMethods (t := t) ho c fuel (fun x hx => hm x.1 (load_mem he x hx)) (p := (v, p.2)) (q := (v', q.2))
        ⟨l2, h.2⟩
      revert hr
      simp only
      cases runMethods o c fuel t ms (v, p.2) <;> cases runMethods o c fuel t ms (v', q.2) <;> intro hr <;> first
        | exact absurd hr id
        | exact sim_runTargets ho c fuel hm ts hr
        | exact hr

end Sim

/-! ### C127 -/

/-- **C127** (part) Two runs of the benchmark with the same configuration, methods and targets and a seed that is not negative,
started at any times and after any use of the random generator, end in the same way and write the same rows up to the columns
`time` and `memory`, for all methods that behave equally in worlds with the same generator. Missing: methods of which a call
is ended by the time limit, see `C127_refuted`. -/
theorem C127_partial {R : W → W → Prop} {o : Ops T σ W μ V} (ho : Measures R o) {c : Config} (hc : 0 ≤ c.rseed) (fuel : ℕ)
    {methods : List (Method T σ W V)} (hm : ∀ m ∈ methods, ClockFree R m) (ts : List (Target T)) (w w' : W) :
    SameRun (run o c fuel methods ts w) (run o c fuel methods ts w') := by
  have key : SimOut (SimFile R) (run o c fuel methods ts w) (run o c fuel methods ts w') := by
    unfold run
    rw [if_pos hc, if_pos hc]
    dsimp only
    split_ifs
    · exact ⟨rfl, ho.seed _ _ _, .nil⟩
    · exact sim_runTargets ho c fuel hm ts ⟨ho.seed _ _ _, .nil⟩
  revert key
  cases run o c fuel methods ts w <;> cases run o c fuel methods ts w' <;> intro key <;> first
    | exact absurd key id
    | exact ⟨key.1, key.2.2⟩
    | exact key.2

/-! A method whose report depends on the generator, timed by a clock: the world is (generator, clock). -/

/-- It draws one number per sample; each call takes as long as the clock shows. -/
def drawer : Method Unit ℕ (ℕ × ℕ) ℕ :=
  ⟨fun _ w => (.ok 0, w), fun _ w => (none, 0, w), fun _ n _ s w => (.ok n, s + w.1, (w.1 + n, w.2 + w.2)),
    fun s => .ok ⟨s, "drawer", 1, s, s, s⟩⟩

/-- Seeding, and the metrics: the time is the reading of the clock minus the one at the start. -/
def clocked : Ops Unit ℕ (ℕ × ℕ) ℕ ℕ :=
  ⟨fun k w => (k, w.2), fun _ w => (0, w), fun _ _ w => (0, w), fun k _ w => (if k.timed then w.2 else 0, w), fun _ m w => (m, w),
    fun _ k m s w => (.ok (if k.timed then w.2 - m else s + w.1), m, s, w)⟩

theorem clocked_measures : Measures (fun w w' : ℕ × ℕ => w.1 = w'.1) clocked := by
  refine ⟨?_, ?_, ?_, ?_, ?_, ?_, ?_⟩ <;> simp +contextual [clocked]

theorem drawer_clockFree : ClockFree (fun w w' : ℕ × ℕ => w.1 = w'.1) drawer := by
  refine ⟨?_, ?_, ?_⟩ <;> simp +contextual [drawer]

/-- Two runs in different worlds: the rows agree up to the time. -/
example : SameRun (run clocked ⟨["T", "JSD"], 7, 2, 5⟩ 9 [drawer, drawer] [⟨(), 1, "target", 25, 10⟩] (3, 100))
    (run clocked ⟨["T", "JSD"], 7, 2, 5⟩ 9 [drawer, drawer] [⟨(), 1, "target", 25, 10⟩] (11, 5)) :=
  C127_partial clocked_measures (by norm_num) 9 (by simp [drawer_clockFree]) _ _ _

/-- And there is something to compare: with one repetition of five samples a row is written, with different times. -/
example : (∃ p, run clocked ⟨["T", "JSD"], 7, 1, 5⟩ 1 [drawer] [⟨(), 1, "target", 5, 5⟩] (3, 100) = .done p ∧
      p.2.map Row.values = [[("time", 100), ("JSD", 19)]]) ∧
    ∃ p, run clocked ⟨["T", "JSD"], 7, 1, 5⟩ 1 [drawer] [⟨(), 1, "target", 5, 5⟩] (11, 5) = .done p ∧
      p.2.map Row.values = [[("time", 5), ("JSD", 19)]] := by
  constructor <;>
  simp [run, runTargets, runMethods, loadMethods, evaluate, forN, repetition, loop, iter, finish, newMetrics, each, computeAll,
    dictSet, Kind.ofConfig, Kind.name, Kind.timed, drawer, clocked,
    show ¬ (5 : ℝ) < 0 by norm_num]

/-! Rejection sampling on a slow and on a fast machine. -/

/-- The random numbers of two rounds, the same on both machines; on the slow one the time limit has passed after a round. -/
noncomputable def rounds (slow : Bool) : List (Rejection.Iter 1) :=
  [⟨fun _ => ![0], fun j => if j = 0 then 0 else 3/4, slow⟩, ⟨fun _ => ![1], fun _ => 0, slow⟩]

/-- Rejection sampling as the benchmark uses it; the world is the speed of the machine. -/
noncomputable def rejecter : Method Unit (Rejection.Rej 1) Bool ℕ :=
  ⟨fun _ w => (.ok Rejection.init, w), fun _ w => (none, Rejection.init, w),
    fun _ n _ S w =>
      match Rejection.importanceSample Rejection.exCfg n false (rounds w) (fun _ => 0) S with
      | .done S => (.ok S.samples.length, S, w)
      | .raised e S => (.error e, S, w)
      | .running S => (.error .value, S, w),
    fun S => .ok ⟨0, "rejection", 0, S.numQ, S.numQEval, S.numPi⟩⟩

/-- No metrics. -/
def unmeasured : Ops Unit (Rejection.Rej 1) Bool Unit ℕ :=
  ⟨fun _ w => w, fun _ w => ((), w), fun _ _ w => ((), w), fun _ _ w => ((), w), fun _ _ w => ((), w),
    fun _ _ m s w => (.ok 0, m, s, w)⟩

theorem rejecter_sample (slow : Bool) : ∃ S : Rejection.Rej 1, S.samples.length = (if slow then 1 else 2) ∧
    S.numQ = (if slow then 2 else 4) ∧
    Rejection.importanceSample Rejection.exCfg 2 false (rounds slow) (fun _ => 0) Rejection.init = .done S := by
  have hk : Rejection.exCfg.nKde = 1 := rfl
  have r2 : List.range 2 = [0, 1] := rfl
  have r1 : List.range 1 = [0] := rfl
  have h34 : ¬ ((3 : ℝ) / 4 < 2⁻¹) := by norm_num
  cases slow
  · simp [rounds, Rejection.importanceSample, whileScript, Rejection.body, Rejection.init, Rejection.ex_accepts,
      MHast.updateModel, hk, r2, r1, h34]
  · simp [rounds, Rejection.importanceSample, whileScript, Rejection.body, Rejection.init, Rejection.ex_accepts,
      MHast.updateModel, hk, r2, r1, h34]

theorem rejecter_run (slow : Bool) : ∃ p, run unmeasured ⟨[], 7, 1, 5⟩ 1 [rejecter] [⟨(), 1, "target", 1, 2⟩] slow = .done p ∧
    p.2.map Row.nsamples = [if slow then 1 else 2] ∧ p.2.map (fun r => r.report.numQ) = [if slow then 2 else 4] := by
  obtain ⟨S, h1, h2, h3⟩ := rejecter_sample slow
  cases slow <;>
  simp [run, runTargets, runMethods, loadMethods, evaluate, forN, repetition, loop, iter, finish, newMetrics, each, computeAll,
    rejecter, unmeasured, h3, h1, h2, show ¬ (5 : ℝ) < 0 by norm_num]

/-- **C127, refuted**: with the same seed and the same random numbers, rejection sampling writes a row of one sample on a machine
on which the time limit ends the call after the first round, and a row of two samples on a faster one. -/
theorem C127_refuted : ∃ (o : Ops Unit (Rejection.Rej 1) Bool Unit ℕ) (c : Config) (m : Method Unit (Rejection.Rej 1) Bool ℕ)
    (t : Target Unit) (slow fast : Bool), 0 ≤ c.rseed ∧ c.metrics = [] ∧ ∃ p q,
      run o c 1 [m] [t] slow = .done p ∧ run o c 1 [m] [t] fast = .done q ∧
      p.2.map Row.nsamples = [1] ∧ q.2.map Row.nsamples = [2] ∧
      ¬ SameRun (run o c 1 [m] [t] slow) (run o c 1 [m] [t] fast) := by
  obtain ⟨p, hp, hp2, -⟩ := rejecter_run true
  obtain ⟨q, hq, hq2, -⟩ := rejecter_run false
  refine ⟨unmeasured, ⟨[], 7, 1, 5⟩, rejecter, ⟨(), 1, "target", 1, 2⟩, true, false, by norm_num, rfl, p, q, hp, hq, hp2, hq2, ?_⟩
  rw [hp, hq]
  intro h
  have h : List.Forall₂ SameRow p.2 q.2 := h
  have : p.2.map Row.nsamples = q.2.map Row.nsamples := by
    rw [← List.forall₂_eq_eq_eq, List.forall₂_map_left_iff, List.forall₂_map_right_iff]
    exact h.imp fun _ _ h => h.nsamples
  rw [hp2, hq2] at this
  simp at this

end Bench
end Verif
