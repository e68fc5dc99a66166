import Verif.Model.Benchmark
import Verif.Proof.Loop
import Mathlib.Data.List.Chain
import Mathlib.Tactic.Linarith

/-!
# Lemmas on the benchmark loop
-/

set_option linter.unusedSectionVars false
set_option autoImplicit false

namespace Verif
namespace Bench

variable {T σ W μ V : Type*} {o : Ops T σ W μ V} {m : Method T σ W V} {t : Target T} {maxTime : ℝ}

/-- State of a finished iteration. -/
def Step.state : Step σ → σ
  | .next s => s
  | .brk s => s
  | .raised _ s => s

theorem iter_cases (r : Rep σ W μ V) :
    (∃ e r', iter o m t maxTime r = .raised e r' ∧ r'.lines = r.lines) ∨
    ∃ k s w r' row, m.sample t.obj r.n (maxTime - r.samplingTime) r.obj (each o.pre r.ms r.w).2 = (.ok k, s, w) ∧
      r'.acc = k ∧ r'.n = k + t.batch ∧ r'.samplingTime = r.samplingTime ∧ r'.lines = r.lines ++ [row] ∧
      row.nsamples = k ∧ row.dims = t.dims ∧ row.target = t.name ∧ r'.bound = true ∧
      iter o m t maxTime r = if maxTime < r.samplingTime then .brk r' else .next r' := by
  unfold iter
  dsimp only
  generalize m.sample t.obj r.n (maxTime - r.samplingTime) r.obj (each o.pre r.ms r.w).2 = sm
  obtain ⟨x, s, w⟩ := sm
  cases x with
  | error e => exact .inl ⟨_, _, rfl, rfl⟩
  | ok k =>
    dsimp only
    generalize computeAll o t.obj (each o.post (each o.pre r.ms r.w).1 w).1 [] s
      (each o.post (each o.pre r.ms r.w).1 w).2 = cm
    obtain ⟨y, ms, s', w'⟩ := cm
    cases y with
    | error e => exact .inl ⟨_, _, rfl, rfl⟩
    | ok d =>
      dsimp only
      cases m.report s' with
      | error e => exact .inl ⟨_, _, rfl, rfl⟩
      | ok rep =>
        exact .inr ⟨k, s, w, ⟨s', w', ms, k, k + t.batch, r.samplingTime, true, r.lines ++ [⟨t.dims, k, d, rep, t.name⟩]⟩,
          ⟨t.dims, k, d, rep, t.name⟩, rfl, rfl, rfl, rfl, rfl, rfl, rfl, rfl, rfl, rfl⟩

/-- The sample counts of consecutive lines grow by at least `b`, starting from `a`; all but the last are below `max`. -/
structure Climb (b : ℕ) (max : ℤ) (a : ℕ) (new : List ℕ) : Prop where
  chain : List.IsChain (fun x y => x + b ≤ y) (a :: new)
  below : ∀ c ∈ (a :: new).dropLast, (c : ℤ) < max

theorem loop_climb (hs : ∀ n T s w k s' w', m.sample t.obj n T s w = (.ok k, s', w') → n ≤ k) (ht : 0 ≤ maxTime)
    (fuel : ℕ) : ∀ r : Rep σ W μ V, r.n = r.acc + t.batch → r.samplingTime = 0 →
    ∃ new : List (Row V), (loop o m t maxTime fuel r).state.lines = r.lines ++ new ∧
      Climb t.batch t.maxSamples r.acc (new.map Row.nsamples) ∧
      match loop o m t maxTime fuel r with
      | .done r' => t.maxSamples ≤ ((r.acc :: new.map Row.nsamples).getLast (by simp) : ℤ) ∧
          r'.acc = (r.acc :: new.map Row.nsamples).getLast (by simp) ∧ (new ≠ [] → r'.bound = true) ∧
          (r.bound = true → r'.bound = true) ∧ (r'.bound = true → r.bound = true ∨ 0 < t.maxSamples)
      | .raised _ _ => ((r.acc :: new.map Row.nsamples).getLast (by simp) : ℤ) < t.maxSamples
      | .running _ => ((r.acc :: new.map Row.nsamples).getLast (by simp) : ℤ) < t.maxSamples ∧ new.length = fuel := by
  induction fuel with
  | zero =>
    intro r hn h0
    refine ⟨[], ?_, ⟨by simp, by simp⟩, ?_⟩
    · unfold loop; split <;> simp [Out.state]
    · unfold loop
      by_cases h : (r.acc : ℤ) < t.maxSamples
      · rw [if_pos h]; exact ⟨h, rfl⟩
      · rw [if_neg h]; exact ⟨not_lt.1 h, rfl, fun h => absurd rfl h, id, .inl⟩
  | succ fuel ih =>
    intro r hn h0
    unfold loop
    by_cases h : (r.acc : ℤ) < t.maxSamples
    · rw [if_pos h]
      rcases iter_cases (o := o) (m := m) (t := t) (maxTime := maxTime) r with
        ⟨e, r', he, hl⟩ | ⟨k, s, w, r', row, hsm, hacc, hn', hst, hl, hrow, -, -, hb, he⟩
      · rw [he]
        exact ⟨[], by simp [Out.state, hl], ⟨by simp, by simp⟩, h⟩
      · rw [he, if_neg (by rw [h0]; exact not_lt.2 ht)]
        obtain ⟨new, h1, h2, h3⟩ := ih r' (by rw [hn', hacc]) (by rw [hst, h0])
        have hk : r.acc + t.batch ≤ k := by rw [← hn]; exact hs _ _ _ _ _ _ _ hsm
        refine ⟨row :: new, ?_, ⟨?_, ?_⟩, ?_⟩
        · dsimp only; rw [h1, hl, List.append_assoc]; rfl
        · rw [List.map_cons, List.isChain_cons_cons, hrow, ← hacc]
          exact ⟨by rw [hacc]; exact hk, h2.chain⟩
        · intro c hc
          rw [List.map_cons, List.dropLast_cons_of_ne_nil (by simp), List.mem_cons, hrow, ← hacc] at hc
          rcases hc with rfl | hc
          · exact h
          · exact h2.below c hc
        · dsimp only
          have hlast : (r.acc :: (row :: new).map Row.nsamples).getLast (by simp) =
              (r'.acc :: new.map Row.nsamples).getLast (by simp) := by
            rw [List.getLast_cons (by simp)]
            simp only [List.map_cons, hrow, hacc]
          rw [hlast]
          cases hL : loop o m t maxTime fuel r' with
          | done r2 =>
            rw [hL] at h3
            exact ⟨h3.1, h3.2.1, fun _ => h3.2.2.2.1 hb, fun _ => h3.2.2.2.1 hb,
              fun _ => .inr (lt_of_le_of_lt (Int.natCast_nonneg _) h)⟩
          | raised e r2 => rw [hL] at h3; exact h3
          | running r2 => rw [hL] at h3; exact ⟨h3.1, by simp [h3.2]⟩
    · rw [if_neg h]
      exact ⟨[], by simp [Out.state], ⟨by simp, by simp⟩, not_lt.1 h, rfl, fun h => absurd rfl h, id, .inl⟩

/-- In a climb from zero the number at place `i` is at least `i` steps up. -/
theorem chain_ge {b : ℕ} : ∀ (l : List ℕ) (a : ℕ), List.IsChain (fun x y => x + b ≤ y) (a :: l) →
    ∀ i (hi : i < (a :: l).length), a + i * b ≤ (a :: l)[i] := by
  intro l
  induction l with
  | nil => intro a _ i hi; simp at hi; subst hi; simp
  | cons c l ih =>
    intro a h i hi
    rw [List.isChain_cons_cons] at h
    cases i with
    | zero => simp
    | succ i =>
      have := ih c h.2 i (by simpa using hi)
      rw [List.getElem_cons_succ]
      nlinarith [h.1]

theorem Climb.length {b : ℕ} {max : ℤ} {a : ℕ} {new : List ℕ} (h : Climb b max a new) (hn : new ≠ []) :
    ((new.length : ℤ) - 1) * b < max := by
  have hlen : 0 < new.length := List.length_pos_iff.2 hn
  have h1 := chain_ge new a h.chain (new.length - 1) (by simp; omega)
  have h2 := h.below ((a :: new)[new.length - 1]'(by simp; omega)) (by
    rw [List.dropLast_eq_take]
    rw [List.mem_take_iff_getElem]
    exact ⟨new.length - 1, by simp; omega, rfl⟩)
  have : ((new.length - 1 : ℕ) : ℤ) = (new.length : ℤ) - 1 := by omega
  rw [← this]
  have h3 : ((new.length - 1 : ℕ) : ℤ) * b ≤ ((a :: new)[new.length - 1]'(by simp; omega) : ℕ) := by
    exact_mod_cast le_trans (Nat.le_add_left _ _) h1
  exact lt_of_le_of_lt h3 h2

theorem chain_pairwise {b : ℕ} (hb : 1 ≤ b) {l : List ℕ} (h : List.IsChain (fun x y => x + b ≤ y) l) : l.Pairwise (· < ·) := by
  have : List.IsChain (fun x y : ℕ => x < y) l := h.imp fun x y hxy => by omega
  exact List.isChain_iff_pairwise.1 this

/-- No operation but a call of `importance_sample` changes the quantity `f` of the world. -/
structure Untouched {β : Type*} (o : Ops T σ W μ V) (m : Method T σ W V) (t : T) (f : W → β) : Prop where
  seed : ∀ k w, f (o.seed k w) = f w
  new : ∀ k w, f (o.new k w).2 = f w
  mreset : ∀ k x w, f (o.reset k x w).2 = f w
  pre : ∀ k x w, f (o.pre k x w).2 = f w
  post : ∀ k x w, f (o.post k x w).2 = f w
  compute : ∀ k x s w, f (o.compute t k x s w).2.2.2 = f w
  reset : ∀ s w, f (m.reset s w).2.2 = f w

section meter
variable {β : Type*} {f : W → β}

theorem each_keeps {g : Kind → μ → W → μ × W} (hg : ∀ k x w, f (g k x w).2 = f w) :
    ∀ (ms : List (Kind × μ)) (w : W), f (each g ms w).2 = f w
  | [], _ => rfl
  | (k, x) :: ms, w => by
    show f (each g ms (g k x w).2).2 = f w
    rw [each_keeps hg, hg]

theorem newMetrics_keeps (h : Untouched o m t.obj f) : ∀ (ms : List String) (w : W), f (newMetrics o ms w).2 = f w
  | [], _ => rfl
  | x :: ms, w => by
    unfold newMetrics
    split
    · exact newMetrics_keeps h ms w
    · dsimp only; rw [newMetrics_keeps h, h.new]

theorem computeAll_keeps (h : Untouched o m t.obj f) : ∀ (ms : List (Kind × μ)) (d : List (String × V)) (s : σ) (w : W),
    f (computeAll o t.obj ms d s w).2.2.2 = f w
  | [], _, _, _ => rfl
  | (k, x) :: ms, d, s, w => by
    have hc := h.compute k x s w
    unfold computeAll
    split
    · rename_i he; rw [he] at hc; exact hc
    · rename_i he
      rw [he] at hc
      dsimp only
      rw [computeAll_keeps h]
      exact hc

end meter

theorem iter_meter {f : W → ℝ} {a b : ℝ} (h : Untouched o m t.obj f)
    (hm : ∀ n s w k s' w', m.sample t.obj n maxTime s w = (.ok k, s', w') → f w + a ≤ f w' ∧ f w' ≤ f w + b)
    {r r' : Rep σ W μ V} (h0 : r.samplingTime = 0) (hi : iter o m t maxTime r = .next r' ∨ iter o m t maxTime r = .brk r') :
    f r.w + a ≤ f r'.w ∧ f r'.w ≤ f r.w + b := by
  unfold iter at hi
  dsimp only at hi
  rw [h0, sub_zero] at hi
  have hp := each_keeps (g := o.pre) h.pre r.ms r.w
  generalize hsm : m.sample t.obj r.n maxTime r.obj (each o.pre r.ms r.w).2 = sm at hi
  obtain ⟨x, s, w⟩ := sm
  cases x with
  | error e => rcases hi with hi | hi <;> cases hi
  | ok k =>
    have hb := hm _ _ _ _ _ _ hsm
    rw [hp] at hb
    dsimp only at hi
    have hq := each_keeps (g := o.post) h.post (each o.pre r.ms r.w).1 w
    have hc := computeAll_keeps h (each o.post (each o.pre r.ms r.w).1 w).1 [] s (each o.post (each o.pre r.ms r.w).1 w).2
    generalize computeAll o t.obj (each o.post (each o.pre r.ms r.w).1 w).1 [] s
      (each o.post (each o.pre r.ms r.w).1 w).2 = cm at hi hc
    obtain ⟨y, ms, s', w'⟩ := cm
    rw [hq] at hc
    dsimp only at hc hi
    cases y with
    | error e => rcases hi with hi | hi <;> cases hi
    | ok d =>
      dsimp only at hi
      cases hr : m.report s' with
      | error e => rw [hr] at hi; rcases hi with hi | hi <;> cases hi
      | ok rep =>
        rw [hr] at hi
        dsimp only at hi
        have : r'.w = w' := by
          rcases hi with hi | hi <;> (split at hi <;> cases hi <;> rfl)
        rw [this, hc]
        exact hb

theorem loop_meter {f : W → ℝ} {a b : ℝ} (h : Untouched o m t.obj f)
    (hm : ∀ n s w k s' w', m.sample t.obj n maxTime s w = (.ok k, s', w') → f w + a ≤ f w' ∧ f w' ≤ f w + b)
    (fuel : ℕ) : ∀ r r' : Rep σ W μ V, r.samplingTime = 0 → loop o m t maxTime fuel r = .done r' →
    ∃ new : List (Row V), r'.lines = r.lines ++ new ∧ f r.w + a * new.length ≤ f r'.w ∧ f r'.w ≤ f r.w + b * new.length := by
  induction fuel with
  | zero =>
    intro r r' h0 hl
    unfold loop at hl
    split at hl
    · cases hl
    · cases hl; exact ⟨[], by simp⟩
  | succ fuel ih =>
    intro r r' h0 hl
    unfold loop at hl
    split at hl
    · rcases iter_cases (o := o) (m := m) (t := t) (maxTime := maxTime) r with
        ⟨e, r1, he, hl1⟩ | ⟨k, s, w, r1, row, -, -, -, hst, hl1, -, -, -, -, he⟩
      · rw [he] at hl; cases hl
      · split at he
        · have hmt := iter_meter h hm h0 (.inr he)
          rw [he] at hl; cases hl
          exact ⟨[row], hl1, by simpa using hmt.1, by simpa using hmt.2⟩
        · have hmt := iter_meter h hm h0 (.inl he)
          rw [he] at hl
          obtain ⟨new, e1, e2, e3⟩ := ih r1 r' (by rw [hst, h0]) hl
          refine ⟨row :: new, by rw [e1, hl1, List.append_assoc]; rfl, ?_, ?_⟩ <;>
            (rw [List.length_cons]; push_cast; linarith [hmt.1, hmt.2])
    · cases hl; exact ⟨[], by simp⟩

theorem repetition_meter {f : W → ℝ} {a b : ℝ} (h : Untouched o m t.obj f)
    (hm : ∀ n s w k s' w', m.sample t.obj n maxTime s w = (.ok k, s', w') → f w + a ≤ f w' ∧ f w' ≤ f w + b)
    {fuel : ℕ} {r r' : Rep σ W μ V} (hl : repetition o m t maxTime fuel r = .done r') :
    ∃ new : List (Row V), r'.lines = r.lines ++ new ∧ f r.w + a * new.length ≤ f r'.w ∧ f r'.w ≤ f r.w + b * new.length := by
  unfold repetition at hl
  have hr := h.reset r.obj r.w
  generalize m.reset r.obj r.w = rs at hl hr
  obtain ⟨x, s, w⟩ := rs
  cases x with
  | some e => cases hl
  | none =>
    dsimp only at hl hr
    have hp := each_keeps (g := o.reset) h.mreset r.ms w
    generalize hL : loop o m t maxTime fuel { r with obj := s, w := (each o.reset r.ms w).2, ms := (each o.reset r.ms w).1, acc := 0, n := t.batch, samplingTime := 0 } = L at hl
    cases L with
    | running r1 => cases hl
    | raised e r1 => cases hl
    | done r1 =>
      dsimp only at hl
      have : r1 = r' := by
        unfold finish at hl
        split at hl
        · cases hl
        · split at hl <;> cases hl; rfl
      subst this
      obtain ⟨new, e1, e2, e3⟩ := loop_meter h hm fuel _ _ rfl hL
      dsimp only at e1 e2 e3
      rw [hp, hr] at e2 e3
      exact ⟨new, e1, e2, e3⟩

end Bench
end Verif
