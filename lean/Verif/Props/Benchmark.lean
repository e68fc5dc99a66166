import Verif.Proof.Benchmark
import Mathlib.Data.Rat.Floor
import Mathlib.Algebra.Order.BigOperators.Group.List
import Mathlib.Tactic.NormNum

/-!
# The evaluation loop of the benchmark (C61, C62)
-/

set_option linter.unusedSectionVars false
set_option autoImplicit false

namespace Verif
namespace Bench

variable {T σ W μ V : Type*} {o : Ops T σ W μ V} {m : Method T σ W V} {t : Target T}

/-! ### Specification -/

/-- The lines of a completed repetition: the sample counts strictly increase, there are at most
`ceil(max_samples / batch_size)` lines, the last count reaches `max_samples` and no other does. -/
structure Complete (t : Target T) (rows : List (Row V)) : Prop where
  increasing : (rows.map Row.nsamples).Pairwise (· < ·)
  number : rows.length ≤ ⌈(t.maxSamples : ℚ) / t.batch⌉₊
  reached : ∃ x, (rows.map Row.nsamples).getLast? = some x ∧ t.maxSamples ≤ x
  others : ∀ c ∈ (rows.map Row.nsamples).dropLast, (c : ℤ) < t.maxSamples

/-- The lines of a repetition that an exception ended: strictly increasing counts below `max_samples`. -/
structure Unfinished (t : Target T) (rows : List (Row V)) : Prop where
  increasing : (rows.map Row.nsamples).Pairwise (· < ·)
  number : rows.length ≤ ⌈(t.maxSamples : ℚ) / t.batch⌉₊
  below : ∀ c ∈ rows.map Row.nsamples, (c : ℤ) < t.maxSamples

/-- The method returns at least as many samples as asked for, when it returns. -/
def Delivers (m : Method T σ W V) (t : Target T) : Prop :=
  ∀ n timeout s w k s' w', m.sample t.obj n timeout s w = (.ok k, s', w') → n ≤ k

/-! ### C61 -/

theorem ceil_ge {max : ℤ} {b n : ℕ} (hb : 1 ≤ b) (h : n ≠ 0 → ((n : ℤ) - 1) * b < max) : n ≤ ⌈(max : ℚ) / b⌉₊ := by
  cases n with
  | zero => exact Nat.zero_le _
  | succ n =>
    have hb' : (0 : ℚ) < b := by exact_mod_cast hb
    rw [Nat.succ_le_iff, Nat.lt_ceil, lt_div_iff₀ hb']
    have := h (Nat.succ_ne_zero n)
    push_cast at this
    rw [add_sub_cancel_right] at this
    exact_mod_cast this

theorem repetition_climb (hs : Delivers m t) (hb : 1 ≤ t.batch) {maxTime : ℝ} (ht : 0 ≤ maxTime) {fuel : ℕ}
    (hf : ⌈(t.maxSamples : ℚ) / t.batch⌉₊ ≤ fuel) (r : Rep σ W μ V) (hbd : r.bound = true → 0 < t.maxSamples) :
    (repetition o m t maxTime fuel r).Sat
      (fun r' => (∃ new, r'.lines = r.lines ++ new ∧ Complete t new) ∧ (r'.bound = true → 0 < t.maxSamples))
      (fun r' => ∃ new, r'.lines = r.lines ++ new ∧ Unfinished t new) (fun _ => False) := by
  have hnil : Unfinished t ([] : List (Row V)) := ⟨by simp, by simp, by simp⟩
  unfold repetition
  generalize m.reset r.obj r.w = rs
  obtain ⟨x, s, w⟩ := rs
  cases x with
  | some e => exact ⟨[], by simp, hnil⟩
  | none =>
    dsimp only
    generalize hr1 : ({ r with obj := s, w := (each o.reset r.ms w).2, ms := (each o.reset r.ms w).1, acc := 0, n := t.batch, samplingTime := 0 } : Rep σ W μ V) = r1
    have hl1 : r1.lines = r.lines := by rw [← hr1]
    have ha1 : r1.acc = 0 := by rw [← hr1]
    have hb1 : r1.bound = r.bound := by rw [← hr1]
    obtain ⟨new, e1, e2, e3⟩ := loop_climb (o := o) hs ht fuel r1 (by rw [← hr1]; simp) (by rw [← hr1])
    rw [ha1] at e2
    have hnum : new.length ≤ ⌈(t.maxSamples : ℚ) / t.batch⌉₊ := ceil_ge hb fun h => by
      have := e2.length (by intro h'; apply h; rw [List.map_eq_nil_iff] at h'; rw [h']; rfl)
      rwa [List.length_map] at this
    have hinc : (new.map Row.nsamples).Pairwise (· < ·) := (List.pairwise_cons.1 (chain_pairwise hb e2.chain)).2
    have hlow : ∀ c ∈ (new.map Row.nsamples).dropLast, (c : ℤ) < t.maxSamples := by
      intro c hc
      refine e2.below c ?_
      cases hn : new.map Row.nsamples with
      | nil => rw [hn] at hc; simp at hc
      | cons a l => rw [hn] at hc; rw [List.dropLast_cons_of_ne_nil (by simp)]; exact List.mem_cons_of_mem _ hc
    have hall (hlast : (((0 : ℕ) :: new.map Row.nsamples).getLast (by simp) : ℤ) < t.maxSamples) :
        ∀ c ∈ new.map Row.nsamples, (c : ℤ) < t.maxSamples := by
      intro c hc
      have hne : new.map Row.nsamples ≠ [] := List.ne_nil_of_mem hc
      rw [← List.dropLast_append_getLast hne, List.mem_append, List.mem_singleton] at hc
      rcases hc with hc | rfl
      · exact hlow c hc
      · rwa [List.getLast_cons hne] at hlast
    generalize loop o m t maxTime fuel r1 = L at e1 e3
    cases L with
    | running r2 =>
      dsimp only at e3
      obtain ⟨h1, h2⟩ := e3
      simp only [ha1] at h1
      have hge := chain_ge _ _ e2.chain new.length (by simp)
      have hlast : ((0 : ℕ) :: new.map Row.nsamples)[new.length]'(by simp) =
          ((0 : ℕ) :: new.map Row.nsamples).getLast (by simp) := by
        rw [List.getLast_eq_getElem]; simp
      rw [hlast] at hge
      have hb' : (0 : ℚ) < t.batch := by exact_mod_cast hb
      have hc : (t.maxSamples : ℚ) / t.batch ≤ fuel := le_trans (Nat.le_ceil _) (by exact_mod_cast hf)
      rw [div_le_iff₀ hb'] at hc
      have hc' : t.maxSamples ≤ (fuel : ℤ) * t.batch := by exact_mod_cast hc
      rw [← h2] at hc'
      have : ((new.length * t.batch : ℕ) : ℤ) < t.maxSamples :=
        lt_of_le_of_lt (by exact_mod_cast (Nat.zero_add _ ▸ hge)) h1
      push_cast at this
      omega
    | raised e r2 =>
      dsimp only at e3
      simp only [ha1] at e3
      exact ⟨new, by rw [← hl1]; exact e1, hinc, hnum, hall e3⟩
    | done r2 =>
      dsimp only at e3
      simp only [ha1] at e3
      obtain ⟨h1, -, h3, h4, h5⟩ := e3
      have hl2 : r2.lines = r.lines ++ new := by rw [← hl1]; exact e1
      have hb2 : r2.bound = true → 0 < t.maxSamples := fun h => (h5 h).elim (fun h => hbd (hb1 ▸ h)) id
      dsimp only
      unfold finish
      have hneg : new = [] ∨ 0 < t.maxSamples := by
        by_cases hne : new = []
        · exact .inl hne
        · exact .inr (hb2 (h3 hne))
      split
      · rename_i h0
        rcases hneg with rfl | h
        · exact ⟨[], hl2, hnil⟩
        · omega
      · split
        · rename_i hbt
          refine ⟨⟨new, hl2, hinc, hnum, ?_, hlow⟩, hb2⟩
          have hpos := hb2 hbt
          have hne : new.map Row.nsamples ≠ [] := by
            intro h
            simp only [h] at h1
            simp at h1
            omega
          refine ⟨(new.map Row.nsamples).getLast hne, List.getLast?_eq_some_getLast hne, ?_⟩
          rwa [List.getLast_cons hne] at h1
        · rename_i hbf
          rcases hneg with rfl | h
          · exact ⟨[], hl2, hnil⟩
          · have : new = [] := by
              by_contra hne
              exact hbf (h3 hne)
            subst this
            exact ⟨[], hl2, hnil⟩

/-- **C61** For a method that delivers the samples it is asked for, whatever else it does: an evaluation ends (each
repetition within `ceil(max_samples / batch_size)` iterations). If it returns, the file got `n_reps` complete
repetitions; if an exception ends it, it got some complete repetitions and the beginning of another. -/
theorem C61_evaluation {c : Config} (hs : Delivers m t) (hb : 1 ≤ t.batch) (ht : 0 ≤ c.maxTime) {fuel : ℕ}
    (hf : ⌈(t.maxSamples : ℚ) / t.batch⌉₊ ≤ fuel) (s : σ) (w : W) :
    (evaluate o c m t fuel s w).Sat
      (fun r => ∃ reps : List (List (Row V)), reps.length = c.nReps ∧ r.lines = reps.flatten ∧ ∀ rep ∈ reps, Complete t rep)
      (fun r => ∃ (reps : List (List (Row V))) (rest : List (Row V)), reps.length < c.nReps ∧
        r.lines = reps.flatten ++ rest ∧ (∀ rep ∈ reps, Complete t rep) ∧ Unfinished t rest)
      (fun _ => False) := by
  unfold evaluate
  dsimp only
  refine (forN_inv (fun i r => (∃ reps : List (List (Row V)), reps.length = i ∧ r.lines = reps.flatten ∧
      ∀ rep ∈ reps, Complete t rep) ∧ (r.bound = true → 0 < t.maxSamples)) _ (fun _ => False) c.nReps ?_ _
      ⟨⟨[], rfl, rfl, by simp⟩, by simp⟩).mono (fun _ h => h.1) (fun _ h => h) (fun _ h => h)
  rintro i hi r ⟨⟨reps, h1, h2, h3⟩, hbd⟩
  refine (repetition_climb hs hb ht hf r hbd).mono ?_ ?_ (fun _ h => h)
  · rintro r' ⟨⟨new, h4, h5⟩, h6⟩
    refine ⟨⟨reps ++ [new], by simp [h1], by rw [h4, h2]; simp, ?_⟩, h6⟩
    intro rep hrep
    rcases List.mem_append.1 hrep with h | h
    · exact h3 rep h
    · rw [List.mem_singleton.1 h]; exact h5
  · rintro r' ⟨new, h4, h5⟩
    exact ⟨reps, new, by omega, by rw [h4, h2], h3, h5⟩

theorem evaluate_meter {c : Config} {f : W → ℝ} {a b : ℝ} (h : Untouched o m t.obj f)
    (hm : ∀ n s w k s' w', m.sample t.obj n c.maxTime s w = (.ok k, s', w') → f w + a ≤ f w' ∧ f w' ≤ f w + b)
    {fuel : ℕ} {s : σ} {w : W} {r : Rep σ W μ V} (he : evaluate o c m t fuel s w = .done r) :
    f w + a * r.lines.length ≤ f r.w ∧ f r.w ≤ f w + b * r.lines.length := by
  unfold evaluate at he
  dsimp only at he
  have hw : f (if 0 ≤ c.rseed then o.seed c.rseed.toNat w else w) = f w := by
    split
    · exact h.seed _ _
    · rfl
  have key := forN_inv (f := fun _ r => repetition o m t c.maxTime fuel r)
    (fun _ r => f w + a * r.lines.length ≤ f r.w ∧ f r.w ≤ f w + b * r.lines.length)
    (fun _ => True) (fun _ => True) c.nReps (fun i _ r hr => ?_) _
    (show f w + a * (Rep.lines ⟨s, (newMetrics o c.metrics (if 0 ≤ c.rseed then o.seed c.rseed.toNat w else w)).2,
        (newMetrics o c.metrics (if 0 ≤ c.rseed then o.seed c.rseed.toNat w else w)).1, 0, t.batch, 0, false, []⟩ :
        List (Row V)).length ≤ _ ∧ _ by
      show f w + a * (([] : List (Row V)).length : ℝ) ≤ _ ∧ _ ≤ f w + b * (([] : List (Row V)).length : ℝ)
      rw [newMetrics_keeps h, hw]
      simp)
  · rw [he] at key
    exact key
  · cases hrep : repetition o m t c.maxTime fuel r with
    | running r' => trivial
    | raised e r' => trivial
    | done r' =>
      obtain ⟨new, e1, e2, e3⟩ := repetition_meter h hm hrep
      show _ ≤ _ ∧ _ ≤ _
      rw [e1, List.length_append]
      push_cast
      constructor <;> linarith [hr.1, hr.2]

/-- **C61**, one line per call: for any count of the calls of `importance_sample` kept outside the program. -/
theorem C61_calls {c : Config} {calls : W → ℕ} (h : Untouched o m t.obj calls)
    (hm : ∀ n timeout s w, calls (m.sample t.obj n timeout s w).2.2 = calls w + 1)
    {fuel : ℕ} {s : σ} {w : W} {r : Rep σ W μ V} (he : evaluate o c m t fuel s w = .done r) :
    calls r.w = calls w + r.lines.length := by
  have hU : Untouched o m t.obj fun w => (calls w : ℝ) :=
    ⟨fun k w => congrArg _ (h.seed k w), fun k w => congrArg _ (h.new k w), fun k x w => congrArg _ (h.mreset k x w),
      fun k x w => congrArg _ (h.pre k x w), fun k x w => congrArg _ (h.post k x w),
      fun k x s w => congrArg _ (h.compute k x s w), fun s w => congrArg _ (h.reset s w)⟩
  have := evaluate_meter (a := 1) (b := 1) hU (fun n s w k s' w' hsm => by
    have := hm n c.maxTime s w
    rw [hsm] at this
    dsimp only at this
    rw [this]
    push_cast
    exact ⟨le_refl _, le_refl _⟩) he
  rw [one_mul] at this
  exact_mod_cast le_antisymm this.2 this.1

/-! ### C62 -/

/-- **C62**, what holds: each call gets the whole limit as its time out. So if calls overrun their time out by at most
`over`, and deliver what they are asked for, the sampling time of an evaluation is at most
`n_reps * ceil(max_samples / batch_size)` times `max_sampling_time + over` (missing: it should be once). `spent` is any
measure of the time spent sampling. -/
theorem C62_partial {c : Config} {spent : W → ℝ} {over : ℝ} (hs : Delivers m t) (hb : 1 ≤ t.batch) (ht : 0 ≤ c.maxTime)
    (ho : 0 ≤ over) (h : Untouched o m t.obj spent)
    (hm : ∀ n timeout s w, 0 ≤ timeout → spent w ≤ spent (m.sample t.obj n timeout s w).2.2 ∧
      spent (m.sample t.obj n timeout s w).2.2 ≤ spent w + (timeout + over))
    {fuel : ℕ} (hf : ⌈(t.maxSamples : ℚ) / t.batch⌉₊ ≤ fuel) {s : σ} {w : W} {r : Rep σ W μ V}
    (he : evaluate o c m t fuel s w = .done r) :
    spent r.w ≤ spent w + c.nReps * ⌈(t.maxSamples : ℚ) / t.batch⌉₊ * (c.maxTime + over) := by
  have h1 := (evaluate_meter (a := 0) (b := c.maxTime + over) h (fun n s w k s' w' hsm => by
    have := hm n c.maxTime s w ht
    rw [hsm] at this
    exact ⟨by linarith [this.1], this.2⟩) he).2
  have h2 := C61_evaluation (o := o) hs hb ht hf s w
  rw [he] at h2
  obtain ⟨reps, h3, h4, h5⟩ := h2
  have h6 : r.lines.length ≤ c.nReps * ⌈(t.maxSamples : ℚ) / t.batch⌉₊ := by
    rw [h4, List.length_flatten, ← h3]
    have : ∀ x ∈ reps.map List.length, x ≤ ⌈(t.maxSamples : ℚ) / t.batch⌉₊ := by
      intro x hx
      obtain ⟨rep, hrep, rfl⟩ := List.mem_map.1 hx
      exact (h5 rep hrep).number
    have := List.sum_le_card_nsmul _ _ this
    simpa using this
  have h7 : (r.lines.length : ℝ) ≤ c.nReps * ⌈(t.maxSamples : ℚ) / t.batch⌉₊ := by exact_mod_cast h6
  nlinarith [mul_le_mul_of_nonneg_left h7 (add_nonneg ht ho)]

/-- A method whose calls take ten seconds and return no samples; the world is the clock. -/
def slow : Method Unit ℕ ℝ ℝ where
  new _ w := (.ok 0, w)
  reset _ w := (none, 0, w)
  sample _ _ _ s w := (.ok 0, s, w + 10)
  report _ := .ok ⟨1, "slow", 1, 0, 0, 0⟩

/-- Metrics that do nothing. -/
def idle : Ops Unit ℕ ℝ Unit ℝ where
  seed _ w := w
  new _ w := ((), w)
  reset _ _ w := ((), w)
  pre _ _ w := ((), w)
  post _ _ w := ((), w)
  compute _ _ _ s w := (.ok 0, (), s, w)

theorem slow_loop (fuel : ℕ) : ∀ r : Rep ℕ ℝ Unit ℝ, r.acc = 0 → r.ms = [] → r.samplingTime = 0 →
    ∃ r', loop idle slow ⟨(), 1, "target", 100, 10⟩ 5 fuel r = .running r' ∧ r'.w = r.w + 10 * fuel := by
  induction fuel with
  | zero => intro r h0 _ _; exact ⟨r, by simp [loop, h0], by simp⟩
  | succ n ih =>
    intro r h0 h1 h2
    obtain ⟨r', h3, h4⟩ := ih
      ⟨r.obj, r.w + 10, [], 0, 10, 0, true, r.lines ++ [⟨1, 0, [], ⟨1, "slow", 1, 0, 0, 0⟩, "target"⟩]⟩ rfl rfl rfl
    refine ⟨r', ?_, by rw [h4]; push_cast; ring⟩
    rw [loop, if_pos (by simp [h0])]
    have : iter idle slow ⟨(), 1, "target", 100, 10⟩ 5 r = .next
        ⟨r.obj, r.w + 10, [], 0, 10, 0, true, r.lines ++ [⟨1, 0, [], ⟨1, "slow", 1, 0, 0, 0⟩, "target"⟩]⟩ := by
      simp [iter, h1, h2, each, computeAll, slow]
    rw [this]
    exact h3

/-- The code violates **C62**: with a limit of five seconds, a method that takes ten seconds for each call and makes no
progress is called for ever, each repetition goes on after any amount of sampling time. -/
theorem C62_refuted : ∃ (o : Ops Unit ℕ ℝ Unit ℝ) (m : Method Unit ℕ ℝ ℝ) (t : Target Unit) (c : Config), c.maxTime = 5 ∧
    c.nReps = 1 ∧ Untouched o m t.obj (id : ℝ → ℝ) ∧ (∀ n timeout s w, (m.sample t.obj n timeout s w).2.2 = w + 10) ∧
    ∀ fuel s w, ∃ r, evaluate o c m t fuel s w = .running r ∧ r.w = w + 10 * fuel := by
  refine ⟨idle, slow, ⟨(), 1, "target", 100, 10⟩, ⟨[], -1, 1, 5⟩, rfl, rfl, ?_, fun _ _ _ _ => rfl, fun fuel s w => ?_⟩
  · constructor <;> intros <;> rfl
  · obtain ⟨r, h1, h2⟩ := slow_loop fuel ⟨0, w, [], 0, 10, 0, false, []⟩ rfl rfl rfl
    refine ⟨r, ?_, h2⟩
    have : repetition idle slow ⟨(), 1, "target", 100, 10⟩ 5 fuel ⟨s, w, [], 0, 10, 0, false, []⟩ = .running r := by
      unfold repetition
      rw [show slow.reset s w = (none, 0, w) from rfl]
      dsimp only [each]
      rw [h1]
    show forN (fun _ r => repetition idle slow ⟨(), 1, "target", 100, 10⟩ 5 fuel r) 1 ⟨s, w, [], 0, 10, 0, false, []⟩ = _
    simp only [forN, this]

/-- A method that returns exactly what it is asked for; the world counts its calls. -/
def obliging : Method Unit ℕ ℕ ℚ where
  new _ w := (.ok 0, w)
  reset _ w := (none, 0, w)
  sample _ n _ _ w := (.ok n, n, w + 1)
  report _ := .ok ⟨1, "obliging", 1, 0, 0, 0⟩

/-- Metrics that do nothing. -/
def idleN : Ops Unit ℕ ℕ Unit ℚ where
  seed _ w := w
  new _ w := ((), w)
  reset _ _ w := ((), w)
  pre _ _ w := ((), w)
  post _ _ w := ((), w)
  compute _ _ _ s w := (.ok 0, (), s, w)

/-! ### Examples -/

/-- Two repetitions of 25 samples in batches of ten. -/
theorem obliging_run : ∃ r, evaluate idleN ⟨["T"], 0, 2, 5⟩ obliging ⟨(), 1, "target", 25, 10⟩ 3 0 0 = .done r ∧
    r.lines.map Row.nsamples = [10, 20, 30, 10, 20, 30] ∧ r.w = 6 := by
  simp [evaluate, forN, repetition, loop, iter, each, newMetrics, computeAll, obliging, idleN, finish, Kind.ofConfig,
    show ¬ (5 : ℝ) < 0 by norm_num]

/-- It meets the hypotheses of `C61_evaluation`. -/
example : ((evaluate idleN ⟨["T"], 0, 2, 5⟩ obliging ⟨(), 1, "target", 25, 10⟩ 3 0 0).Sat
    (fun r => ∃ reps : List (List (Row ℚ)), reps.length = 2 ∧ r.lines = reps.flatten ∧
      ∀ rep ∈ reps, Complete (T := Unit) ⟨(), 1, "target", 25, 10⟩ rep) (fun _ => True) (fun _ => False)) :=
  (C61_evaluation (c := ⟨["T"], 0, 2, 5⟩) (fun n _ _ _ k _ _ h => by cases h; exact le_refl _) (by decide)
    (by norm_num) (by norm_num [Nat.ceil_le]) 0 0).mono (fun _ h => h) (fun _ _ => trivial) (fun _ h => h)

/-- And of `C61_calls`. -/
example : ∃ r, evaluate idleN ⟨["T"], 0, 2, 5⟩ obliging ⟨(), 1, "target", 25, 10⟩ 3 0 0 = .done r ∧
    (id r.w : ℕ) = 0 + r.lines.length := by
  obtain ⟨r, h, -⟩ := obliging_run
  exact ⟨r, h, C61_calls (calls := id) (by constructor <;> intros <;> rfl) (fun _ _ _ _ => rfl) h⟩

/-- And of `C62_partial`, with a clock that moves one second per call. -/
example : ∃ r, evaluate idleN ⟨["T"], 0, 2, 5⟩ obliging ⟨(), 1, "target", 25, 10⟩ 3 0 0 = .done r ∧
    (r.w : ℝ) ≤ ((0 : ℕ) : ℝ) + (2 : ℕ) * ⌈((25 : ℤ) : ℚ) / (10 : ℕ)⌉₊ * (5 + 10) := by
  obtain ⟨r, h, -⟩ := obliging_run
  refine ⟨r, h, C62_partial (o := idleN) (m := obliging) (t := ⟨(), 1, "target", 25, 10⟩)
    (c := ⟨["T"], 0, 2, 5⟩) (fuel := 3) (spent := fun w => (w : ℝ)) (over := 10)
    (fun n _ _ _ k _ _ h => by cases h; exact le_refl _) (by decide) (by norm_num) (by norm_num)
    (by constructor <;> intros <;> rfl) (fun n T s w hT => ?_) (by norm_num [Nat.ceil_le]) h⟩
  show (w : ℝ) ≤ ((w + 1 : ℕ) : ℝ) ∧ ((w + 1 : ℕ) : ℝ) ≤ _
  push_cast
  constructor <;> linarith

end Bench
end Verif
