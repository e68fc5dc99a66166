import Verif.Spec.MH
import Verif.Proof.MH

/-!
# Metropolis-Hastings: C46, C47, C49, C83, C84
-/

set_option linter.unusedSectionVars false
set_option autoImplicit false

namespace Verif
namespace MHast

variable {d : ℕ} {c : Cfg d}

/-! ### C46 -/

theorem propose_inBox (h : ∀ i, c.lo i ≤ c.hi i) (x z : Fin d → ℝ) : InBox c.lo c.hi (propose c x z) := by
  intro i
  unfold propose clip
  exact ⟨le_min (le_max_right _ _) (h i), min_le_right _ _⟩

/-- Accounted, and the current point is in the search space once something was logged. -/
def Good (c : Cfg d) (S : MH d) : Prop :=
  Accounted c.lo c.hi S ∧ (S.trajS ≠ [] → InBox c.lo c.hi S.cur)

theorem accounted_after (h : ∀ i, c.lo i ≤ c.hi i) {S : MH d} (hS : Accounted c.lo c.hi S) (x : Fin d → ℝ)
    (ts : List (Try d)) : Accounted c.lo c.hi (after c x S ts) := by
  constructor
  · simp [after, hS.labels]
  · simp [after, hS.drawn]
  · simp [after, hS.targetEvals]; ring
  · simp [after, hS.proposalEvals]; ring
  · intro y hy
    simp only [after, List.mem_append, List.mem_map] at hy
    rcases hy with hy | ⟨t, -, rfl⟩
    · exact hS.log y hy
    · exact propose_inBox h _ _
  · exact hS.samples

theorem accounted_logged (h : ∀ i, c.lo i ≤ c.hi i) {S : MH d} (hS : Accounted c.lo c.hi S) (x y : Fin d → ℝ)
    (rej : List (Try d)) (t : Try d) (l : Label) :
    Accounted c.lo c.hi { logged c x S rej t l with cur := y } := by
  constructor
  · simp [logged, hS.labels]
  · simp [logged, hS.drawn, add_assoc]
  · simp [logged, hS.targetEvals]; ring
  · simp [logged, hS.proposalEvals]; ring
  · intro y hy
    simp only [logged, List.mem_append, List.mem_map, List.mem_singleton] at hy
    rcases hy with (hy | ⟨t, -, rfl⟩) | rfl
    · exact hS.log y hy
    · exact propose_inBox h _ _
    · exact propose_inBox h _ _
  · exact hS.samples

theorem dropLast_label {l : List Label} (h : l ≠ []) (a : Label) : (l.dropLast ++ [a]).length = l.length := by
  have := List.length_pos_iff.2 h
  simp
  omega

theorem good_advance (h : ∀ i, c.lo i ≤ c.hi i) (l : Label) (env : StepEnv d) (S : MH d) (hS : Good c S) :
    (advance c l env S).Sat (Good c) (Good c) (Accounted c.lo c.hi) := by
  rcases advance_cases c l env S with ⟨-, e, -⟩ | ⟨-, -, e⟩ | ⟨-, hne, e⟩ | ⟨-, rej, t, rest, -, -, -, e⟩ <;> rw [e]
  · exact accounted_after h hS.1 _ _
  · exact hS
  · refine ⟨⟨?_, hS.1.drawn, hS.1.targetEvals, hS.1.proposalEvals, hS.1.log, hS.1.samples⟩, hS.2⟩
    show (S.trajT.dropLast ++ [l]).length = _
    rw [dropLast_label hne, hS.1.labels]
  · exact ⟨accounted_logged h hS.1 _ _ _ _ _, fun _ => propose_inBox h _ _⟩

theorem good_iter (h : ∀ i, c.lo i ≤ c.hi i) (env : ℕ → StepEnv d) (S : MH d) (pre acc : List (Fin d → ℝ))
    (hS : Good c S ∧ ∀ x ∈ pre ++ acc, InBox c.lo c.hi x) :
    (mcmcIter c env (S, acc)).Sat (fun p => Good c p.1 ∧ ∀ x ∈ pre ++ p.2, InBox c.lo c.hi x) (fun p => Good c p.1)
      (fun p => Accounted c.lo c.hi p.1) := by
  refine mcmcIter_inv (R := Good c) (J := Accounted c.lo c.hi) (fun _ => Good c) env acc
    (fun S' l => Good c S' ∧ ∀ x ∈ pre ++ l, InBox c.lo c.hi x)
    (fun j _ S hS => good_advance h _ _ S hS) ?_ (fun S hS _ => hS) S hS.1
  intro S' hS' hne
  have hne' : S'.trajS ≠ [] := by
    intro h0
    apply hne
    have := hS'.1.labels
    rw [h0] at this
    exact List.length_eq_zero_iff.1 this
  refine ⟨⟨⟨?_, hS'.1.drawn, hS'.1.targetEvals, hS'.1.proposalEvals, hS'.1.log, hS'.1.samples⟩, hS'.2⟩, ?_⟩
  · show (S'.trajT.dropLast ++ [_]).length = _
    rw [dropLast_label hne, hS'.1.labels]
  · intro x hx
    rw [← List.append_assoc, List.mem_append, List.mem_singleton] at hx
    rcases hx with hx | rfl
    · exact hS.2 x hx
    · exact hS'.2 hne'

theorem good_sample (h : ∀ i, c.lo i ≤ c.hi i) (n : ℕ) (burn : ℕ → List (Try d)) (env : ℕ → ℕ → ℕ → StepEnv d) (S : MH d)
    (hS : Good c S) :
    (sample c n burn env S).Sat (fun p => Good c p.1 ∧ ∀ x ∈ p.2, InBox c.lo c.hi x) (fun p => Good c p.1)
      (fun p => Accounted c.lo c.hi p.1) := by
  refine sample_inv (I := fun S l => Good c S ∧ ∀ x ∈ l, InBox c.lo c.hi x) (R := Good c) (J := Accounted c.lo c.hi)
    n burn env ?_ ?_ ?_ S ⟨hS, by simp⟩
  · intro j _ S hS
    exact (good_advance h _ _ S hS.1).mono (fun _ h => ⟨h, by simp⟩) (fun _ h => h) (fun _ h => h)
  · intro S hS
    exact ⟨⟨⟨hS.1.1.labels, hS.1.1.drawn, hS.1.1.targetEvals, hS.1.1.proposalEvals, hS.1.1.log, hS.1.1.samples⟩, hS.1.2⟩,
      hS.2⟩
  · intro k _ i _ S pre acc hS
    exact good_iter h _ S pre acc hS

theorem good_body (h : ∀ i, c.lo i ≤ c.hi i) (it : Iter d) (S : MH d) (hS : Good c S) :
    (body c it S).Sat (Good c) (Good c) (Accounted c.lo c.hi) := by
  have := good_sample h 1 it.burn it.env S hS
  unfold body
  revert this
  cases sample c 1 it.burn it.env S with
  | running p => exact fun h => h
  | raised e p => exact fun h => h
  | done p =>
    rintro ⟨hg, hb⟩
    refine ⟨⟨hg.1.labels, hg.1.drawn, hg.1.targetEvals, hg.1.proposalEvals, hg.1.log, ?_⟩, hg.2⟩
    intro x hx
    rcases List.mem_append.1 hx with hx | hx
    · exact hg.1.samples x hx
    · exact hb x hx

theorem good_importance (h : ∀ i, c.lo i ≤ c.hi i) (n : ℕ) (expired : Bool) (script : List (Iter d)) (idx : ℕ → ℕ)
    (S : MH d) (hS : Good c S) :
    (importanceSample c n expired script idx S).Sat (Good c) (Good c) (Accounted c.lo c.hi) := by
  have := whileOut_inv (Good c) (Good c) (Accounted c.lo c.hi) (cond := fun S => decide (S.samples.length < n))
    (late := Iter.late) (body := body c) (fun S hS => hS.1) script (fun it _ S hS _ => good_body h it S hS) expired S hS
  unfold importanceSample
  revert this
  cases whileOut (fun S => decide (S.samples.length < n)) Iter.late (body c) expired script S with
  | running S => exact fun h => h
  | raised e S => exact fun h => h
  | done S =>
    intro hg
    have hw : ∀ (w : List (XF ℝ)) (k : Option (List (Fin d → ℝ))), Good c { S with weights := w, kde := k } := by
      intro w k
      exact ⟨⟨hg.1.labels, hg.1.drawn, hg.1.targetEvals, hg.1.proposalEvals, hg.1.log, hg.1.samples⟩, hg.2⟩
    simp only
    cases updateModel c.nKde idx S.samples with
    | error e => exact hw _ S.kde
    | ok m => exact hw _ _

theorem reach_good (h : ∀ i, c.lo i ≤ c.hi i) {S : MH d} (hS : Reach c S) : Good c S := by
  induction hS with
  | new x0 => exact ⟨⟨rfl, rfl, rfl, rfl, by simp [init], by simp [init]⟩, by simp [init]⟩
  | reset _ _ => exact ⟨⟨rfl, rfl, rfl, rfl, by simp [reset], by simp [reset]⟩, by simp [reset]⟩
  | @sampleDone S S' n burn env res _ he ih =>
    have := good_sample h n burn env S ih
    rw [he] at this
    exact this.1
  | @sampleRaised S S' n burn env res e _ he ih =>
    have := good_sample h n burn env S ih
    rw [he] at this
    exact this
  | @isDone S S' n expired script idx _ he ih =>
    have := good_importance h n expired script idx S ih
    rw [he] at this
    exact this
  | @isRaised S S' n expired script idx e _ he ih =>
    have := good_importance h n expired script idx S ih
    rw [he] at this
    exact this

/-- **C46**. In every reachable state the log and the counters agree and samples lie in the search space; this also
holds of the object while a call is running, and of the list returned by `sample`. No assumption is made on clock,
target, proposal or random outcomes. -/
theorem C46_mh (h : ∀ i, c.lo i ≤ c.hi i) {S : MH d} (hS : Reach c S) :
    Accounted c.lo c.hi S ∧
    (∀ n expired script idx, Accounted c.lo c.hi (importanceSample c n expired script idx S).state) ∧
    (∀ n burn env, Accounted c.lo c.hi (sample c n burn env S).state.1) ∧
    (∀ n burn env S' res, sample c n burn env S = .done (S', res) → ∀ x ∈ res, InBox c.lo c.hi x) := by
  have hg := reach_good h hS
  refine ⟨hg.1, ?_, ?_, ?_⟩
  · intro n expired script idx
    exact Out.Sat.state ((good_importance h n expired script idx S hg).mono (fun _ h => h.1) (fun _ h => h.1) (fun _ h => h))
  · intro n burn env
    exact Out.Sat.state (I := fun p => Accounted c.lo c.hi p.1)
      ((good_sample h n burn env S hg).mono (fun _ h => h.1.1) (fun _ h => h.1) (fun _ h => h))
  · intro n burn env S' res he
    have := good_sample h n burn env S hg
    rw [he] at this
    exact this.2

/-! ### C47 -/

theorem mcmcIter_length {env : ℕ → StepEnv d} {p q : MH d × List (Fin d → ℝ)} (h : mcmcIter c env p = .done q) :
    q.2.length = p.2.length + 1 := by
  have := mcmcIter_inv (c := c) (R := fun _ => True) (J := fun _ => True) (fun _ _ => True) env p.2
    (fun _ l => l.length = p.2.length + 1)
    (fun j _ S _ => by cases advance c .decorrelation (env j) S <;> trivial) (by simp) (fun _ _ _ => trivial) p.1 trivial
  rw [show ((p.1, p.2) : MH d × List (Fin d → ℝ)) = p from rfl, h] at this
  exact this

theorem mcmc_length {n : ℕ} {env : ℕ → ℕ → StepEnv d} {S : MH d} {q : MH d × List (Fin d → ℝ)}
    (h : mcmc c n env S = .done q) : q.2.length = n := by
  have := forN_inv (fun i (p : MH d × List (Fin d → ℝ)) => p.2.length = i) (fun _ => True) (fun _ => True)
    (f := fun i p => mcmcIter c (env i) p) n (fun i _ p hp => ?_) (S, []) rfl
  · rw [show forN (fun i p => mcmcIter c (env i) p) n (S, []) = mcmc c n env S from rfl, h] at this
    exact this
  · cases he : mcmcIter c (env i) p with
    | done q => exact (mcmcIter_length he).trans (by rw [hp])
    | raised e q => trivial
    | running q => trivial

/-- **C47**, what holds: a call of `sample(n)` that returns gives `n * n` samples. -/
theorem C47_partial {n : ℕ} {burn : ℕ → List (Try d)} {env : ℕ → ℕ → ℕ → StepEnv d} {S S' : MH d}
    {res : List (Fin d → ℝ)} (h : sample c n burn env S = .done (S', res)) : res.length = n * n := by
  unfold sample at h
  revert h
  cases burnIn c burn S with
  | running S => intro h; cases h
  | raised e S => intro h; cases h
  | done S1 =>
    intro h
    have := forN_inv (fun i (p : MH d × List (Fin d → ℝ)) => p.2.length = i * n) (fun _ => True) (fun _ => True)
      (f := fun i p => sampleIter c n (env i) p) n (fun i _ p hp => ?_) (S1, []) (by simp)
    · simp only at h
      rw [h] at this
      exact this
    · unfold sampleIter
      cases he : mcmc c n (env i) p.1 with
      | done q =>
        show (p.2 ++ q.2).length = _
        rw [List.length_append, mcmc_length he, hp]; ring
      | raised e q => trivial
      | running q => trivial

/-! ### termination -/

/-- In this environment some try is accepted whatever the current point. -/
def Accepting (c : Cfg d) (ts : List (Try d)) : Prop := ∀ x, ∃ t ∈ ts, accepts c x (propose c x t.z) t.u = true

theorem advance_accepting {env : StepEnv d} (ho : env.closed = false) (ha : Accepting c env.tries) (l : Label) (S : MH d) :
    (advance c l env S).Sat (fun S' => S'.trajT ≠ [] ∧ S'.samples = S.samples) (fun _ => False) (fun _ => False) := by
  rcases advance_cases c l env S with ⟨-, e, h⟩ | ⟨h, -, e⟩ | ⟨h, hne, e⟩ | ⟨-, rej, t, rest, -, -, -, e⟩ <;> rw [e]
  · obtain ⟨t, ht, h2⟩ := ha S.cur
    rw [(h t ht).1] at h2
    cases h2
  · rw [h] at ho; cases ho
  · rw [h] at ho; cases ho
  · exact ⟨by simp [logged], rfl⟩

theorem sample_accepting (n : ℕ) {burn : ℕ → List (Try d)} {env : ℕ → ℕ → ℕ → StepEnv d} (hn : 0 < c.nSteps)
    (hb : ∀ j, Accepting c (burn j)) (he : ∀ i j k, (env i j k).closed = false ∧ Accepting c (env i j k).tries) (S : MH d) :
    (sample c n burn env S).Sat (fun p => p.1.samples = S.samples) (fun _ => False) (fun _ => False) := by
  refine sample_inv (I := fun S' _ => S'.samples = S.samples) (R := fun _ => False) (J := fun _ => False) n burn env
    ?_ ?_ ?_ S rfl
  · intro j _ S1 h1
    exact (advance_accepting rfl (hb j) _ S1).mono (fun _ h => h.2.trans h1) (fun _ h => h) (fun _ h => h)
  · exact fun S1 h1 => h1
  · intro k _ i _ S1 pre acc h1
    refine mcmcIter_inv (R := fun _ => False) (J := fun _ => False)
      (fun j S2 => S2.samples = S.samples ∧ (0 < j → S2.trajT ≠ [])) _ acc (fun S' _ => S'.samples = S.samples) ?_ ?_ ?_ S1
      ⟨h1, by simp⟩
    · intro j _ S2 h2
      exact (advance_accepting (he k i j).1 (he k i j).2 _ S2).mono (fun _ h => ⟨h.2.trans h2.1, fun _ => h.1⟩)
        (fun _ h => h) (fun _ h => h)
    · exact fun S2 h2 _ => h2.1
    · exact fun S2 h2 h3 => h2.2 hn h3

theorem sample_accepting_done (n : ℕ) {burn : ℕ → List (Try d)} {env : ℕ → ℕ → ℕ → StepEnv d} (hn : 0 < c.nSteps)
    (hb : ∀ j, Accepting c (burn j)) (he : ∀ i j k, (env i j k).closed = false ∧ Accepting c (env i j k).tries) (S : MH d) :
    ∃ S' res, sample c n burn env S = .done (S', res) ∧ S'.samples = S.samples ∧ res.length = n * n := by
  have := sample_accepting n hn hb he S
  cases h : sample c n burn env S with
  | done p => rw [h] at this; exact ⟨p.1, p.2, rfl, this, C47_partial h⟩
  | raised e p => rw [h] at this; exact this.elim
  | running p => rw [h] at this; exact this.elim

/-- A flat target and a flat proposal density: everything is accepted. -/
noncomputable def flat : Cfg 1 := ⟨![0], ![1], fun _ => .fin 0, fun _ => .fin 0, 1, 1, 3⟩

theorem flat_accepts (x y : Fin 1 → ℝ) : accepts flat x y (1/2) = true := by
  have h : Real.log (1/2) < 0 := Real.log_neg (by norm_num) (by norm_num)
  simp only [accepts, alpha, flat, XF.log, XF.fin_sub, XF.fin_add]
  rw [if_neg (by norm_num), if_neg (by norm_num)]
  simpa [XF.ltb] using h

theorem flat_accepting : Accepting flat [⟨![1/3], 1/2, false⟩] :=
  fun _ => ⟨_, List.mem_singleton.2 rfl, flat_accepts _ _⟩

/-- **C47** is violated: a run of `sample(2)` returns four samples. -/
theorem C47_refuted : ∃ (c : Cfg 1) (burn : ℕ → List (Try 1)) (env : ℕ → ℕ → ℕ → StepEnv 1) (S S' : MH 1)
    (res : List (Fin 1 → ℝ)), Reach c S ∧ sample c 2 burn env S = .done (S', res) ∧ res.length ≠ 2 := by
  obtain ⟨S', res, h, -, hl⟩ := sample_accepting_done (c := flat) 2 (burn := fun _ => [⟨![1/3], 1/2, false⟩])
    (env := fun _ _ _ => ⟨false, [⟨![1/3], 1/2, false⟩]⟩) (by simp [flat]) (fun _ => flat_accepting)
    (fun _ _ _ => ⟨rfl, flat_accepting⟩) (init ![0])
  exact ⟨flat, _, _, init ![0], S', res, .new _, h, by omega⟩

/-! ### C84 -/

theorem sample_keeps {n : ℕ} {burn : ℕ → List (Try d)} {env : ℕ → ℕ → ℕ → StepEnv d} (S : MH d) :
    (sample c n burn env S).state.1.samples = S.samples := by
  have adv : ∀ l (env : StepEnv d) (S1 : MH d), S1.samples = S.samples →
      (advance c l env S1).Sat (fun S1 => S1.samples = S.samples) (fun S1 => S1.samples = S.samples)
        (fun S1 => S1.samples = S.samples) := by
    intro l env S1 h1
    rcases advance_cases c l env S1 with ⟨-, e, h⟩ | ⟨h, -, e⟩ | ⟨h, hne, e⟩ | ⟨-, rej, t, rest, -, -, -, e⟩ <;> rw [e] <;>
      exact h1
  have := sample_inv (c := c) (I := fun S1 _ => S1.samples = S.samples) (R := fun S1 => S1.samples = S.samples)
    (J := fun S1 => S1.samples = S.samples) n burn env
    (fun j _ S1 h1 => adv _ _ S1 h1) (fun _ h => h)
    (fun k _ i _ S1 pre acc h1 => mcmcIter_inv (R := fun S1 => S1.samples = S.samples) (J := fun S1 => S1.samples = S.samples)
      (fun _ S1 => S1.samples = S.samples) _ acc (fun S1 _ => S1.samples = S.samples)
      (fun j _ S1 h1 => adv _ _ S1 h1) (fun _ h _ => h) (fun _ h _ => h) S1 h1) S rfl
  exact Out.Sat.state (I := fun p : MH d × List (Fin d → ℝ) => p.1.samples = S.samples) this

theorem body_done {it : Iter d} {S S' : MH d} (h : body c it S = .done S') : ∃ x, S'.samples = S.samples ++ [x] := by
  unfold body at h
  revert h
  have hk := sample_keeps (c := c) (n := 1) (burn := it.burn) (env := it.env) S
  cases hs : sample c 1 it.burn it.env S with
  | running p => intro h; cases h
  | raised e p => intro h; cases h
  | done p =>
    intro h
    cases h
    rw [hs] at hk
    have hl := C47_partial (show _ = Out.done (p.1, p.2) from hs)
    obtain ⟨x, hx⟩ := List.length_eq_one_iff.1 (hl.trans (by norm_num))
    refine ⟨x, ?_⟩
    show p.1.samples ++ p.2 = _
    rw [hx]
    exact congrArg (· ++ [x]) hk

theorem body_keeps (it : Iter d) (S : MH d) : (∃ x, (body c it S).state.samples = S.samples ++ [x]) ∨
    (body c it S).state.samples = S.samples := by
  cases h : body c it S with
  | done S' => exact Or.inl (body_done h)
  | raised e S' =>
    right
    have hk := sample_keeps (c := c) (n := 1) (burn := it.burn) (env := it.env) S
    unfold body at h
    revert h
    cases hs : sample c 1 it.burn it.env S with
    | running p => intro h; cases h
    | raised e p => intro h; cases h; rw [hs] at hk; exact hk
    | done p => intro h; cases h
  | running S' =>
    right
    have hk := sample_keeps (c := c) (n := 1) (burn := it.burn) (env := it.env) S
    unfold body at h
    revert h
    cases hs : sample c 1 it.burn it.env S with
    | running p => intro h; cases h; rw [hs] at hk; exact hk
    | raised e p => intro h; cases h
    | done p => intro h; cases h

/-- **C84**. A call of `importance_sample(n)` keeps the earlier samples as prefix and never exceeds `n` (unless there
were more before). If it returns there is one weight `1/size` per sample, at least one sample and the weights add up to
one; if the clock did not interrupt it there are exactly `max n (previous size)` samples. -/
theorem C84_mh (n : ℕ) (expired : Bool) (script : List (Iter d)) (idx : ℕ → ℕ) (S : MH d) :
    (∃ new, (importanceSample c n expired script idx S).state.samples = S.samples ++ new ∧
      S.samples.length + new.length ≤ max n S.samples.length) ∧
    (∀ S', importanceSample c n expired script idx S = .done S' →
      S'.samples ≠ [] ∧
      (∃ w : List ℝ, S'.weights = w.map XF.fin ∧ w.length = S'.samples.length ∧ (∀ a ∈ w, a = 1 / (S'.samples.length : ℝ)) ∧
        w.sum = 1) ∧
      (expired = false → (∀ it ∈ script, it.late = false) → S'.samples.length = max n S.samples.length)) := by
  have key := whileOut_inv (fun S1 => ∃ new, S1.samples = S.samples ++ new ∧ S.samples.length + new.length ≤ max n S.samples.length)
    (fun S1 => ∃ new, S1.samples = S.samples ++ new ∧ S.samples.length + new.length ≤ max n S.samples.length)
    (fun S1 => ∃ new, S1.samples = S.samples ++ new ∧ S.samples.length + new.length ≤ max n S.samples.length)
    (cond := fun S => decide (S.samples.length < n)) (late := Iter.late) (body := body c) (fun _ h => h) script
    (fun it _ S1 hS hc => ?_) expired S ⟨[], by simp, by simp⟩
  · constructor
    · have hs := Out.Sat.state key
      obtain ⟨new, h1, h2⟩ := hs
      refine ⟨new, ?_, h2⟩
      rw [← h1]
      unfold importanceSample
      cases whileOut (fun S => decide (S.samples.length < n)) Iter.late (body c) expired script S with
      | running S => rfl
      | raised e S => rfl
      | done S1 =>
        simp only
        cases updateModel c.nKde idx S1.samples <;> rfl
    · intro S' h
      unfold importanceSample at h
      cases hw : whileOut (fun S => decide (S.samples.length < n)) Iter.late (body c) expired script S with
      | running S1 => rw [hw] at h; cases h
      | raised e S1 => rw [hw] at h; cases h
      | done S1 =>
        rw [hw] at h key
        simp only at h
        cases hu : updateModel c.nKde idx S1.samples with
        | error e => rw [hu] at h; cases h
        | ok m =>
          rw [hu] at h
          cases h
          have hne : S1.samples ≠ [] := by
            intro h0
            simp [updateModel, h0] at hu
          refine ⟨hne, ⟨List.replicate S1.samples.length (1 / (S1.samples.length : ℝ)), by simp, by simp, ?_, ?_⟩, ?_⟩
          · intro a ha
            exact (List.mem_replicate.1 ha).2
          · have : (S1.samples.length : ℝ) ≠ 0 := by
              exact_mod_cast (List.length_pos_iff.2 hne).ne'
            simp [this]
          · intro he hl
            have hc := whileOut_done hw he hl
            obtain ⟨new, h1, h2⟩ := key
            simp only [decide_eq_false_iff_not, not_lt] at hc
            show S1.samples.length = _
            rw [h1] at hc ⊢
            simp only [List.length_append] at hc ⊢
            omega
  · obtain ⟨new, h1, h2⟩ := hS
    have hb : ∃ new, (body c it S1).state.samples = S.samples ++ new ∧ S.samples.length + new.length ≤ max n S.samples.length := by
      rcases body_keeps (c := c) it S1 with ⟨x, hx⟩ | hx
      · refine ⟨new ++ [x], by rw [hx, h1, List.append_assoc], ?_⟩
        simp only [decide_eq_true_eq] at hc
        rw [h1] at hc
        simp only [List.length_append, List.length_singleton] at hc ⊢
        omega
      · exact ⟨new, by rw [hx, h1], h2⟩
    revert hb
    cases body c it S1 <;> exact fun h => h

end MHast
end Verif
