import Verif.Props.MultiNested
import Mathlib.Analysis.SpecialFunctions.Gaussian.GaussianIntegral

/-!
# Multi-nested sampling: C58, C88, C89
-/

set_option linter.unusedSectionVars false
set_option autoImplicit false

namespace Verif
namespace MultiNested

open Nested (Nest addSample minOf finalWeights count getD_lt Same minOf_le minOf_mem samples_congr finalWeights_spec W InBox)

variable {d : ℕ} {c : Cfg d}

/-- No clock reading of the call was past the timeout. -/
def NoTimeout (env : ℕ → Env d) : Prop := ∀ i, (env i).expired = false ∧ ∀ t ∈ (env i).tries, t.late = false

theorem resample_inv (el : Ell d) (value : ℝ) (e : Env d) (S : Nest d) :
    Same S (resample c el value e S).state.1 ∧
    (resample c el value e S).state.2.2 = c.target (resample c el value e S).state.2.1 ∧
    ((resample c el value e S).state.2.1 = clip c.lo c.hi e.y0 ∨ ∃ t ∈ e.tries, (resample c el value e S).state.2.1 = t.y) := by
  unfold resample
  refine whileScript_inv_mem (fun p : Nest d × (Fin d → ℝ) × ℝ => Same S p.1 ∧ p.2.2 = c.target p.2.1 ∧
    (p.2.1 = clip c.lo c.hi e.y0 ∨ ∃ t ∈ e.tries, p.2.1 = t.y)) e.tries ?_ _ _ ?_
  · rintro t ht p ⟨h1, -, -⟩ -
    exact ⟨⟨h1.live, h1.own, h1.view, h1.L, h1.weights, h1.kde⟩, rfl, Or.inr ⟨t, ht, rfl⟩⟩
  · exact ⟨⟨rfl, rfl, rfl, rfl, rfl, rfl⟩, rfl, Or.inl rfl⟩

theorem resample_no_raise (el : Ell d) (value : ℝ) (e : Env d) (S : Nest d) (err : PyErr) (p) :
    resample c el value e S ≠ .raised err p := by
  unfold resample
  simp only
  generalize (count S, clip c.lo c.hi e.y0, c.target (clip c.lo c.hi e.y0)) = s
  generalize e.expired = b
  induction e.tries generalizing s b with
  | nil =>
    unfold whileScript
    split <;> simp
  | cons t ts ih =>
    unfold whileScript
    split
    · exact ih _ _
    · simp

/-- What one iteration for the positions `idx` does. -/
structure StepSpec (c : Cfg d) (el : Ell d) (e : Env d) (S : Nest d) (p : Nest d × List ℝ) (k : ℕ) (x y : Fin d → ℝ) :
    Prop where
  lt : k < S.live.length
  mem : k ∈ el.idx
  x_eq : S.live.getD k 0 = x
  least : ∀ i ∈ el.idx, c.target x ≤ c.target (S.live.getD i 0)
  samples : p.1.samples = S.samples ++ [if S.samples = [] then y else x]
  L : p.1.L = S.L ++ [c.target x]
  live : p.1.live = S.live.set k y
  vals : p.2 = p.1.live.map c.target
  cand : y = clip c.lo c.hi e.y0 ∨ ∃ t ∈ e.tries, y = t.y
  better : e.expired = false → (∀ t ∈ e.tries, t.late = false) → c.radius ^ d < el.vol → c.target x ≤ c.target y

theorem step_done {el : Ell d} {e : Env d} {S : Nest d} {p : Nest d × List ℝ} (hidx : ∀ i ∈ el.idx, i < S.live.length)
    (h : step c el e (S, S.live.map c.target) = .done p) : ∃ k x y, StepSpec c el e S p k x y := by
  have hmap : (el.idx.map fun i => (S.live.map c.target).getD i 0) = el.idx.map fun i => c.target (S.live.getD i 0) := by
    apply List.map_congr_left
    intro i hi
    rw [getD_lt _ _ (by rw [List.length_map]; exact hidx i hi), getD_lt _ _ (hidx i hi), List.getElem_map]
  simp only [step, hmap] at h
  cases hl : el.idx.map fun i => c.target (S.live.getD i 0) with
  | nil => rw [hl] at h; cases h
  | cons v vs =>
    rw [hl] at h
    simp only at h
    set m := minOf v vs with hm
    set j := (v :: vs).idxOf m with hj
    have hjl : j < (v :: vs).length := List.idxOf_lt_length_iff.2 (minOf_mem vs v)
    have hjidx : j < el.idx.length := by
      rw [← hl, List.length_map] at hjl
      exact hjl
    set k := el.idx.getD j 0 with hk
    have hkm : k ∈ el.idx := by
      rw [hk, getD_lt _ _ hjidx]
      exact List.getElem_mem _
    have hkS := hidx k hkm
    have hx : c.target (S.live.getD k 0) = m := by
      have h1 : (v :: vs)[j] = m := List.getElem_idxOf hjl
      have h2 : (v :: vs)[j] = (el.idx.map fun i => c.target (S.live.getD i 0))[j]'(by rw [List.length_map]; exact hjidx) := by
        simp only [hl]
      rw [h2, List.getElem_map] at h1
      rw [hk, getD_lt el.idx _ hjidx]
      exact h1
    have hleast : ∀ i ∈ el.idx, m ≤ c.target (S.live.getD i 0) := by
      intro i hi
      have : c.target (S.live.getD i 0) ∈ v :: vs := by rw [← hl]; exact List.mem_map.2 ⟨i, hi, rfl⟩
      rcases List.mem_cons.1 this with h' | h'
      · rw [h']; exact (minOf_le vs v).1
      · exact (minOf_le vs v).2 _ h'
    have hlive : (addSample k S).live = S.live := by unfold addSample; split <;> rfl
    have hLadd : (addSample k S).L = S.L := by unfold addSample; split <;> rfl
    simp only [hLadd] at h
    set S2 : Nest d := { addSample k S with L := S.L ++ [m] } with hS2
    have hinv := resample_inv (c := c) el m e S2
    cases hr : resample c el m e S2 with
    | running q => rw [hr] at h; cases h
    | raised err q => rw [hr] at h; cases h
    | done q =>
      rw [hr] at h hinv
      simp only [Out.state] at hinv
      obtain ⟨hs, hv, hc⟩ := hinv
      have h := Out.done.inj h
      subst h
      have hSlive : q.1.live = S.live := hs.live.trans hlive
      refine ⟨k, S.live.getD k 0, q.2.1, ⟨hkS, hkm, rfl, ?_, ?_, ?_, ?_, ?_, hc, ?_⟩⟩
      · intro i hi
        rw [hx]
        exact hleast i hi
      · have hvw : q.1.view = (addSample k S).view := hs.view
        have how : q.1.own = (addSample k S).own := hs.own
        show (match q.1.view with | none => q.1.own | some i => [(q.1.live.set k q.2.1).getD i 0]) = _
        rw [hvw, how, hSlive]
        by_cases h0 : S.samples = []
        · simp only [addSample, h0, if_true, List.nil_append]
          rw [getD_lt _ _ (by simpa using hkS)]
          simp
        · simp only [addSample, h0, if_false]
      · show q.1.L = _
        rw [hs.L, hx]
      · show q.1.live.set k _ = _
        rw [hSlive]
      · show (S.live.map c.target).set k q.2.2 = (q.1.live.set k q.2.1).map c.target
        rw [hSlive, List.map_set, hv]
      · intro h1 h2 h3
        rw [hx, ← hv]
        have := whileScript_done hr h1 h2
        simp only [Bool.and_eq_false_imp, decide_eq_true_eq, decide_eq_false_iff_not, not_lt] at this
        by_contra hc'
        exact absurd h3 (not_lt.2 (this (not_le.1 hc')))

/-- Invariants of a call whose clustering succeeds. -/
theorem importance_inv {n fuel : ℕ} {km : ℕ → ℕ → ℕ} {env : ℕ → Env d} {idx : ℕ → ℕ} {S : Nest d} {ells : List (Ell d)}
    (hcl : recursiveClustering c km fuel S.live = some (.ok ells)) (hidx : ∀ e ∈ ells, ∀ p ∈ e.idx, p < S.live.length)
    (I : ℕ → Nest d → Prop)
    (hI : ∀ j (S S' : Nest d), I j S → S'.live = S.live → S'.own = S.own → S'.view = S.view → S'.L = S.L → I j S')
    (hstep : ∀ i < ells.length * perEll n S.samples.length ells.length, ∀ (T : Nest d) p k x y el,
      ells[i / perEll n S.samples.length ells.length]? = some el → T.live.length = S.live.length →
      I i T → StepSpec c el (env i) T p k x y → I (i + 1) p.1)
    (h0 : I 0 S) :
    (∀ S', importanceSample c n km fuel env idx S = .done S' →
      I (ells.length * perEll n S.samples.length ells.length) S' ∧ S'.live.length = S.live.length ∧
      S'.weights = finalWeights c.N S'.L ∧ S'.samples ≠ []) ∧
    (∀ e S', importanceSample c n km fuel env idx S = .raised e S' →
      ∃ j ≤ ells.length * perEll n S.samples.length ells.length, I j S' ∧ S'.live.length = S.live.length) := by
  set m := perEll n S.samples.length ells.length with hm
  have hm0 : 0 < m := lt_of_lt_of_le Nat.one_pos (le_max_right _ _)
  have key := forN_inv (f := fun i => step c (ells.getD (i / m) ⟨0, 0, []⟩) (env i))
    (I := fun i (p : Nest d × List ℝ) => I i p.1 ∧ p.1.live.length = S.live.length ∧ p.2 = p.1.live.map c.target)
    (R := fun p => ∃ j ≤ ells.length * m, I j p.1 ∧ p.1.live.length = S.live.length) (J := fun _ => True) (ells.length * m) (by
      intro i hi p hp
      obtain ⟨T, vals⟩ := p
      obtain ⟨h1, h2, h3⟩ := hp
      simp only at h1 h2 h3
      subst h3
      have hdiv : i / m < ells.length := Nat.div_lt_of_lt_mul (by rw [Nat.mul_comm]; exact hi)
      cases hs : step c (ells.getD (i / m) ⟨0, 0, []⟩) (env i) (T, T.live.map c.target) with
      | running q => trivial
      | raised e q =>
        simp only [step] at hs
        split at hs
        · cases hs
          exact ⟨i, hi.le, h1, h2⟩
        · split at hs
          · cases hs
          · rename_i hr
            exact absurd hr (resample_no_raise _ _ _ _ _ _)
          · cases hs
      | done q =>
        rw [getD_lt _ _ hdiv] at hs
        obtain ⟨k, x, y, h4⟩ := step_done (fun p hp => by rw [h2]; exact hidx _ (List.getElem_mem hdiv) p hp) hs
        exact ⟨hstep i hi T q k x y _ (List.getElem?_eq_getElem hdiv) h2 h1 h4, by rw [h4.live, List.length_set, h2], h4.vals⟩)
    ({ S with numPi := S.numPi + S.live.length }, S.live.map c.target) ⟨hI 0 S _ h0 rfl rfl rfl rfl, rfl, rfl⟩
  unfold importanceSample
  rw [hcl]
  simp only
  rw [← hm]
  revert key
  cases forN (fun i => step c (ells.getD (i / m) ⟨0, 0, []⟩) (env i)) (ells.length * m)
      ({ S with numPi := S.numPi + S.live.length }, S.live.map c.target) with
  | running p =>
    intro _
    exact ⟨fun S' h => (by cases h), fun e S' h => (by cases h)⟩
  | raised e p =>
    intro hk
    refine ⟨fun S' h => (by cases h), fun e' S' h => ?_⟩
    cases h
    exact hk
  | done p =>
    rintro ⟨hk, hlen, -⟩
    simp only
    split
    · refine ⟨fun S' h => (by cases h), fun e' S' h => ?_⟩
      cases h
      exact ⟨_, le_refl _, hk, hlen⟩
    · rename_i hne
      generalize hu : MHast.updateModel c.nKde idx _ = o
      cases o with
      | error e =>
        refine ⟨fun S' h => (by cases h), fun e' S' h => ?_⟩
        cases h
        exact ⟨_, le_refl _, hI _ p.1 _ hk rfl rfl rfl rfl, hlen⟩
      | ok m =>
        refine ⟨fun S' h => ?_, fun e' S' h => (by cases h)⟩
        cases h
        exact ⟨hI _ p.1 _ hk rfl rfl rfl rfl, hlen, rfl, hne⟩

theorem clustering_done {n fuel : ℕ} {km : ℕ → ℕ → ℕ} {env : ℕ → Env d} {idx : ℕ → ℕ} {S S' : Nest d}
    (h : importanceSample c n km fuel env idx S = .done S') :
    ∃ ells, recursiveClustering c km fuel S.live = some (.ok ells) := by
  unfold importanceSample at h
  split at h
  · cases h
  · cases h
  · rename_i ells hcl
    exact ⟨ells, hcl⟩

/-- The parameters the theorems are about: at least one dimension, positive inflation factor, at least two live points and
as many as dimensions. -/
structure Good (c : Cfg d) : Prop where
  dim : 0 < d
  inflate : 0 < c.inflate
  two : 2 ≤ c.N
  dims : d ≤ c.N

/-- The objects a program can hold: new or reset, or left by a call that returned or raised. -/
inductive Reach (c : Cfg d) : Nest d → Prop
  | new (us : Fin c.N → Fin d → ℝ) : (∀ k i, 0 ≤ us k i ∧ us k i < 1) → Reach c (reset c us)
  | isDone {S S' : Nest d} {n fuel : ℕ} {km : ℕ → ℕ → ℕ} {env : ℕ → Env d} {idx : ℕ → ℕ} : Reach c S →
      (∀ k, 0 < k → ∀ p < c.N, km k p < k) → importanceSample c n km fuel env idx S = .done S' → Reach c S'
  | isRaised {S S' : Nest d} {n fuel : ℕ} {km : ℕ → ℕ → ℕ} {env : ℕ → Env d} {idx : ℕ → ℕ} {e : PyErr} : Reach c S →
      (∀ k, 0 < k → ∀ p < c.N, km k p < k) → importanceSample c n km fuel env idx S = .raised e S' → Reach c S'

theorem clustering_mono (km : ℕ → ℕ → ℕ) (pts : List (Fin d → ℝ)) : ∀ (fuel : ℕ) (ells : List (Ell d)) r,
    clustering c km pts fuel ells = some r → clustering c km pts (fuel + 1) ells = some r
  | 0, ells, r, h => by simp [clustering] at h
  | fuel + 1, ells, r, h => by
    rw [clustering] at h ⊢
    split at h
    · rename_i h1
      rw [if_pos h1]
      exact h
    · rename_i h1
      rw [if_neg h1]
      split at h
      · rename_i h2
        rw [if_pos h2]
        exact h
      · rename_i h2
        rw [if_neg h2]
        split at h
        · exact h
        · split at h
          · rename_i h3
            rw [if_pos h3]
            exact h
          · rename_i h3
            rw [if_neg h3]
            split at h
            · rename_i h4
              rw [if_pos h4]
              exact h
            · rename_i h4
              rw [if_neg h4]
              exact clustering_mono km pts fuel _ r h

theorem recursiveClustering_mono (km : ℕ → ℕ → ℕ) (pts : List (Fin d → ℝ)) (fuel j : ℕ) (r)
    (h : recursiveClustering c km fuel pts = some r) : recursiveClustering c km (fuel + j) pts = some r := by
  induction j with
  | zero => exact h
  | succ j ih =>
    unfold recursiveClustering at ih ⊢
    cases hf : fit c.inflate pts (List.range pts.length) with
    | error e => rw [hf] at ih; exact ih
    | ok e =>
      rw [hf] at ih
      exact clustering_mono km pts _ _ r ih

/-- What any successful clustering of the live points looks like. -/
theorem clustering_good (hc : Good c) {km : ℕ → ℕ → ℕ} (hkm : ∀ k, 0 < k → ∀ p < c.N, km k p < k)
    {pts : List (Fin d → ℝ)} (hN : pts.length = c.N) {fuel : ℕ} {ells : List (Ell d)}
    (h : recursiveClustering c km fuel pts = some (.ok ells)) :
    ells ≠ [] ∧ ells.length < c.N ∧ (∀ e ∈ ells, e.idx ≠ [] ∧ ∀ p ∈ e.idx, p < pts.length) := by
  obtain ⟨es, h1, h2, h3, h4, -⟩ := C57_clustering (c := c) hc.dim hc.inflate km pts (by rw [hN]; exact hc.two)
    (by rw [hN]; exact hc.dims) (by rw [hN]; exact hkm) (fuel := fuel + c.N) (by omega)
  rw [recursiveClustering_mono km pts fuel c.N _ h] at h1
  cases h1
  exact ⟨h2, by omega, h4⟩

/-- Invariants of objects. -/
theorem reach_inv (hc : Good c) (I : Nest d → Prop)
    (hI : ∀ (S S' : Nest d), I S → S'.live = S.live → S'.own = S.own → S'.view = S.view → S'.L = S.L → I S')
    (hnew : ∀ us : Fin c.N → Fin d → ℝ, (∀ k i, 0 ≤ us k i ∧ us k i < 1) → I (reset c us))
    (hstep : ∀ (e : Env d) (T : Nest d) p k x y el, T.live.length = c.N → I T → StepSpec c el e T p k x y → I p.1)
    {S : Nest d} (h : Reach c S) : I S ∧ S.live.length = c.N := by
  induction h with
  | new us hus => exact ⟨hnew us hus, by simp [reset]⟩
  | @isDone S S' n fuel km env idx _ hkm he ih =>
    obtain ⟨ells, hcl⟩ := clustering_done he
    obtain ⟨-, -, hg⟩ := clustering_good hc hkm ih.2 hcl
    have := (importance_inv hcl (fun e he => (hg e he).2) (fun _ => I) (fun _ => hI)
      (fun i _ T p k x y el _ hT => hstep (env i) T p k x y el (hT.trans ih.2)) ih.1).1 S' he
    exact ⟨this.1, this.2.1.trans ih.2⟩
  | @isRaised S S' n fuel km env idx e _ hkm he ih =>
    cases hcl : recursiveClustering c km fuel S.live with
    | none =>
      unfold importanceSample at he
      rw [hcl] at he
      cases he
    | some r =>
      cases r with
      | error e' =>
        unfold importanceSample at he
        rw [hcl] at he
        cases he
        exact ⟨hI S _ ih.1 rfl rfl rfl rfl, ih.2⟩
      | ok ells =>
        obtain ⟨-, -, hg⟩ := clustering_good hc hkm ih.2 hcl
        obtain ⟨_, _, h1, h2⟩ := (importance_inv hcl (fun e he => (hg e he).2) (fun _ => I) (fun _ => hI)
          (fun i _ T p k x y el _ hT => hstep (env i) T p k x y el (hT.trans ih.2)) ih.1).2 e S' he
        exact ⟨h1, h2.trans ih.2⟩

theorem reach_basic (hc : Good c) {S : Nest d} (h : Reach c S) :
    S.live.length = c.N ∧ S.L.length = S.samples.length ∧ (∀ l ∈ S.L, ∃ x, l = c.target x) := by
  have := reach_inv hc (fun S => S.L.length = S.samples.length ∧ (∀ l ∈ S.L, ∃ x, l = c.target x)) ?_ ?_ ?_ h
  · exact ⟨this.2, this.1⟩
  · rintro S S' hS h1 h2 h3 h4
    rw [samples_congr h1 h2 h3, h4]
    exact hS
  · intro us _
    simp [reset, Nest.samples]
  · rintro e T p k x y el - ⟨h1, h2⟩ hs
    refine ⟨by rw [hs.L, hs.samples]; simp [h1], ?_⟩
    intro l hl
    rw [hs.L] at hl
    rcases List.mem_append.1 hl with hl | hl
    · exact h2 l hl
    · exact ⟨x, List.mem_singleton.1 hl⟩

/-- **C58**, what holds: with `k` ellipsoids (at least one, fewer than live points) a call adds `k` times the larger of 1
and the missing number of samples divided by `k`, rounded down; earlier samples stay. So it returns exactly the number asked
for if `k` divides the missing number, too few for every other `k` up to that number, and too many if `k` is larger. -/
theorem C58_partial (hc : Good c) {S S' : Nest d} (hS : Reach c S) {n fuel : ℕ} {km : ℕ → ℕ → ℕ} {env : ℕ → Env d}
    {idx : ℕ → ℕ} (hkm : ∀ k, 0 < k → ∀ p < c.N, km k p < k) (h : importanceSample c n km fuel env idx S = .done S') :
    S.samples <+: S'.samples ∧ ∃ ells, recursiveClustering c km fuel S.live = some (.ok ells) ∧
      0 < ells.length ∧ ells.length < c.N ∧
      S'.samples.length = S.samples.length + ells.length * max ((n - S.samples.length) / ells.length) 1 ∧
      (S.samples.length < n → ells.length ∣ n - S.samples.length → S'.samples.length = n) ∧
      (ells.length ≤ n - S.samples.length → ¬ ells.length ∣ n - S.samples.length → S'.samples.length < n) ∧
      (n - S.samples.length < ells.length → n < S'.samples.length) := by
  obtain ⟨ells, hcl⟩ := clustering_done h
  obtain ⟨hne, hlt, hg⟩ := clustering_good hc hkm (reach_basic hc hS).1 hcl
  have hk : 0 < ells.length := List.length_pos_iff.2 hne
  have h1 := (importance_inv (idx := idx) (n := n) (env := env) hcl (fun e he => (hg e he).2) (fun j T =>
    ∃ new, T.samples = S.samples ++ new ∧ new.length = j) (by
      rintro j T T' hT h1 h2 h3 h4
      rw [samples_congr h1 h2 h3]
      exact hT) (by
      rintro i - T p k x y el - - ⟨new, e1, e2⟩ hs
      refine ⟨new ++ [if T.samples = [] then y else x], ?_, by simp [e2]⟩
      rw [hs.samples, ← List.append_assoc, ← e1]) ⟨[], by simp, rfl⟩).1 S' h
  obtain ⟨⟨new, e1, e2⟩, -, -, -⟩ := h1
  have hlen : S'.samples.length = S.samples.length + ells.length * max ((n - S.samples.length) / ells.length) 1 := by
    rw [e1, List.length_append, e2]
    rfl
  refine ⟨⟨new, e1.symm⟩, ells, hcl, hk, hlt, hlen, ?_, ?_, ?_⟩
  · rintro h2 ⟨q, hq⟩
    rw [hlen, hq, Nat.mul_div_cancel_left _ hk]
    have : q ≠ 0 := by
      rintro rfl
      omega
    rw [max_eq_left (by omega)]
    omega
  · intro h2 h3
    have h4 : 1 ≤ (n - S.samples.length) / ells.length := Nat.div_pos h2 hk
    rw [hlen, max_eq_left h4]
    have h5 := Nat.mul_div_le (n - S.samples.length) ells.length
    have h6 : ells.length * ((n - S.samples.length) / ells.length) ≠ n - S.samples.length := fun h => h3 ⟨_, h.symm⟩
    omega
  · intro h2
    rw [hlen, Nat.div_eq_of_lt h2]
    simp
    omega

/-- **C89**. Whatever the clock does, there are always `N` live points; a call that returns keeps the earlier samples as
prefix and returns at least one sample, with one recorded likelihood each. With a nonnegative target and some positive
recorded likelihood there is one nonnegative weight per sample, they add up to 1 and are proportional to recorded
likelihood times prior mass increment. -/
theorem C89_weights (hc : Good c) {S S' : Nest d} (hS : Reach c S) {n fuel : ℕ} {km : ℕ → ℕ → ℕ} {env : ℕ → Env d}
    {idx : ℕ → ℕ} (hkm : ∀ k, 0 < k → ∀ p < c.N, km k p < k) (h : importanceSample c n km fuel env idx S = .done S') :
    S'.live.length = c.N ∧ S.samples <+: S'.samples ∧ S'.samples ≠ [] ∧ S'.L.length = S'.samples.length ∧
    ((∀ x, 0 ≤ c.target x) → (∃ l ∈ S'.L, 0 < l) →
      ∃ w : List ℝ, S'.weights = w.map XF.fin ∧ w.length = S'.samples.length ∧ (∀ a ∈ w, 0 ≤ a) ∧ w.sum = 1 ∧
        ∃ z, 0 < z ∧ ∀ i (hi : i < w.length) (hi' : i < S'.L.length), w[i] * z = S'.L[i] * W c.N i) := by
  obtain ⟨ells, hcl⟩ := clustering_done h
  obtain ⟨hne, hlt, hg⟩ := clustering_good hc hkm (reach_basic hc hS).1 hcl
  obtain ⟨b1, b2, b3⟩ := reach_basic hc (hS.isDone hkm h)
  have h1 := (importance_inv (idx := idx) (n := n) (env := env) hcl (fun e he => (hg e he).2) (fun _ _ => True)
    (fun _ _ _ _ _ _ _ _ => trivial) (fun _ _ _ _ _ _ _ _ _ _ _ _ => trivial) trivial).1 S' h
  refine ⟨b1, (C58_partial hc hS hkm h).1, h1.2.2.2, b2, ?_⟩
  intro hnn hpos
  obtain ⟨w, f1, f2, f3, f4, f5, f6⟩ := finalWeights_spec (N := c.N) (by have := hc.two; omega) (fun l hl => by
    obtain ⟨x, rfl⟩ := b3 l hl
    exact hnn x) hpos
  exact ⟨w, h1.2.2.1.trans f1, f4.trans b2, f2, f3, _, f5, f6⟩

/-- **C88**, what holds: if the live points form a single ellipsoid larger than the convergence radius and the clock does
not run out, the likelihoods recorded by the call never decrease, and no live point is less likely than them. -/
theorem C88_partial (hc : Good c) {S S' : Nest d} (hS : Reach c S) {n fuel : ℕ} {km : ℕ → ℕ → ℕ} {env : ℕ → Env d}
    {idx : ℕ → ℕ} (hkm : ∀ k, 0 < k → ∀ p < c.N, km k p < k) (henv : NoTimeout env) {el : Ell d}
    (hcl : recursiveClustering c km fuel S.live = some (.ok [el])) (hvol : c.radius ^ d < el.vol)
    (h : importanceSample c n km fuel env idx S = .done S') :
    ∃ new, S'.L = S.L ++ new ∧ new.Pairwise (· ≤ ·) ∧ ∀ l ∈ new, ∀ x ∈ S'.live, l ≤ c.target x := by
  have hN := (reach_basic hc hS).1
  obtain ⟨hne, hlt, hg⟩ := clustering_good hc hkm hN hcl
  have hall : ∀ p < S.live.length, p ∈ el.idx := by
    obtain ⟨es, g1, -, -, -, g4⟩ := C57_clustering (c := c) hc.dim hc.inflate km S.live (by rw [hN]; exact hc.two)
      (by rw [hN]; exact hc.dims) (by rw [hN]; exact hkm) (fuel := fuel + c.N) (by omega)
    rw [recursiveClustering_mono km S.live fuel c.N _ hcl] at g1
    cases g1
    intro p hp
    obtain ⟨j, ⟨e, g5, g6⟩, -⟩ := g4 p hp
    rcases j with _ | j
    · simp at g5
      rw [g5]
      exact g6
    · simp at g5
  have h1 := (importance_inv (idx := idx) (n := n) (env := env) hcl (fun e he => (hg e he).2) (fun j T =>
    ∃ new, T.L = S.L ++ new ∧ new.Pairwise (· ≤ ·) ∧ ∀ l ∈ new, ∀ x ∈ T.live, l ≤ c.target x) (by
      rintro j T T' hT h1 h2 h3 h4
      rw [h1, h4]
      exact hT) (by
      rintro i hi T p k x y el' hel hlen ⟨new, e1, e2, e3⟩ hs
      have hel' : el' = el := by
        have := List.mem_of_getElem? hel
        simpa using this
      subst hel'
      have hle := hs.better (henv i).1 (henv i).2 hvol
      have hxm : x ∈ T.live := by
        rw [← hs.x_eq, getD_lt _ _ hs.lt]
        exact List.getElem_mem _
      have hleast : ∀ z ∈ T.live, c.target x ≤ c.target z := by
        intro z hz
        obtain ⟨q, hq, rfl⟩ := List.mem_iff_getElem.1 hz
        have := hs.least q (hall q (by omega))
        rwa [getD_lt _ _ hq] at this
      refine ⟨new ++ [c.target x], by rw [hs.L, e1, List.append_assoc], ?_, ?_⟩
      · rw [List.pairwise_append]
        refine ⟨e2, List.pairwise_singleton _ _, ?_⟩
        intro a ha b hb
        rw [List.mem_singleton.1 hb]
        exact e3 a ha x hxm
      · intro l hl z hz
        rw [hs.live] at hz
        rcases List.mem_or_eq_of_mem_set hz with hz | rfl
        · rcases List.mem_append.1 hl with hl | hl
          · exact e3 l hl z hz
          · rw [List.mem_singleton.1 hl]
            exact hleast z hz
        · rcases List.mem_append.1 hl with hl | hl
          · exact (e3 l hl x hxm).trans hle
          · rw [List.mem_singleton.1 hl]
            exact hle) ⟨[], by simp, List.Pairwise.nil, by simp⟩).1 S' h
  exact h1.1

/-! ### A run with two ellipsoids -/

/-- Four live points in `[0,16]`, less likely to the right. -/
noncomputable def exCfg : Cfg 1 := ⟨![0], ![16], fun x => 12 - x 0, 4, 1, 1 / 100, 2⟩

def exKm (k p : ℕ) : ℕ := if k ≤ 1 ∨ p < 2 then 0 else 1

noncomputable def exLive : List (Fin 1 → ℝ) := [![0], ![1], ![10], ![11]]

theorem ex_fit {a b : ℝ} (hab : b = a + 1) (idx : List ℕ) :
    fit 2 [![a], ![b]] idx = .ok ⟨![a + 1 / 2], sphereVol 1, idx⟩ := by
  have hm : mean [![a], ![b]] = ![a + 1 / 2] := by
    funext i
    fin_cases i
    simp [mean, hab]
    ring
  have hs : std [![a], ![b]] = 1 / 2 := by
    unfold std
    rw [hm]
    have : (List.map (fun x : Fin 1 → ℝ => ∑ j, (x j - ![a + 1 / 2] j) ^ 2) [![a], ![b]]).sum /
        (([![a], ![b]] : List (Fin 1 → ℝ)).length : ℝ) = (1 / 2) ^ 2 := by
      simp [hab]
      norm_num
    rw [this, Real.sqrt_sq (by norm_num)]
  simp [fit, mkEll, hs, hm]
  norm_num

theorem ex_fit_all (idx : List ℕ) :
    fit 2 exLive idx = .ok ⟨![11 / 2], sphereVol 1 * (Real.sqrt (101 / 4) * 2), idx⟩ := by
  have hm : mean exLive = ![11 / 2] := by
    funext i
    fin_cases i
    simp [mean, exLive]
    norm_num
  have hs : std exLive = Real.sqrt (101 / 4) := by
    unfold std
    rw [hm]
    congr 1
    simp [exLive]
    norm_num
  have hp : 0 < Real.sqrt (101 / 4) := Real.sqrt_pos.2 (by norm_num)
  have hl : ¬ exLive.length < 1 := by simp [exLive]
  have hp' : ¬ (Real.sqrt (101 / 4) * 2 ≤ 0) := by linarith
  unfold fit
  rw [if_neg hl, if_neg (by norm_num), hs, hm, if_neg (not_le.2 hp)]
  unfold mkEll
  simp only [Matrix.det_diagonal, Finset.univ_unique, Finset.prod_const, Finset.card_singleton, pow_one]
  rw [if_neg hp']

theorem ex_clustering : recursiveClustering exCfg exKm 3 exLive =
    some (.ok [⟨![1 / 2], sphereVol 1, [0, 1]⟩, ⟨![21 / 2], sphereVol 1, [2, 3]⟩]) := by
  have c0 : cluster exKm 2 4 0 = [0, 1] := by decide
  have c1 : cluster exKm 2 4 1 = [2, 3] := by decide
  have c2 : cluster exKm 3 4 2 = [] := by decide
  have hv := sphereVol_pos (d := 1) (by norm_num)
  have hsq : (5 : ℝ) < Real.sqrt (101 / 4) := Real.lt_sqrt_of_sq_lt (by norm_num)
  have f0 : fit 2 [![(0 : ℝ)], ![1]] [0, 1] = _ := ex_fit (by norm_num) _
  have f1 : fit 2 [![(10 : ℝ)], ![11]] [2, 3] = _ := ex_fit (by norm_num) _
  have hd : dist (⟨![1 / 2], sphereVol 1, [0, 1]⟩ : Ell 1) ⟨![21 / 2], sphereVol 1, [2, 3]⟩ = 10 := by
    unfold dist
    rw [show (∑ i : Fin 1, ((![1 / 2] : Fin 1 → ℝ) i - ![21 / 2] i) * ((![1 / 2] : Fin 1 → ℝ) i - ![21 / 2] i)) = 10 ^ 2 by
      simp; norm_num, Real.sqrt_sq (by norm_num)]
  have hra : ¬ (0.8 < (sphereVol 1 + sphereVol 1) / (sphereVol 1 * (Real.sqrt (101 / 4) * 2))) := by
    rw [not_lt, div_le_iff₀ (by positivity)]
    nlinarith
  have hfit : fitAll exCfg exKm exLive 2 2 = .ok [⟨![1 / 2], sphereVol 1, [0, 1]⟩, ⟨![21 / 2], sphereVol 1, [2, 3]⟩] := by
    have hlen : exLive.length = 4 := rfl
    simp only [fitAll, hlen, c0, c1]
    simp only [exLive, exCfg, List.map_cons, List.map_nil, List.getD_cons_zero, List.getD_cons_succ, f0, f1]
    norm_num
  unfold recursiveClustering
  rw [show exCfg.inflate = 2 from rfl, ex_fit_all]
  have hlen : exLive.length = 4 := rfl
  simp only [clustering, hlen, List.length_singleton, hfit]
  rw [if_neg (by norm_num), if_neg (by decide)]
  simp only [List.map_cons, List.map_nil, List.sum_cons, List.sum_nil, add_zero, pairDistances, hd, List.append_nil,
    List.length_cons, List.length_nil]
  rw [if_neg hra, if_neg (by norm_num), if_neg (by norm_num), if_pos (by decide)]

/-- The numbers behind the live points. -/
noncomputable def exUs (k : Fin 4) (_ : Fin 1) : ℝ := ![0, 1 / 16, 10 / 16, 11 / 16] k

theorem ex_run : ∃ S' : Nest 1, importanceSample exCfg 3 exKm 3 (fun _ => ⟨![0], false, []⟩) (fun _ => 0)
    (reset exCfg exUs) = .done S' ∧ S'.samples = [![0], ![11]] ∧ S'.L = [11, 1] := by
  have hr : reset exCfg exUs = ⟨exLive, [], none, [], [], none, 0, 0, 0⟩ := by
    have : (List.ofFn fun (k : Fin 4) (i : Fin 1) => exUs k i * (exCfg.hi i - exCfg.lo i) + exCfg.lo i) = exLive := by
      simp only [List.ofFn_succ, List.ofFn_zero, exLive]
      congr 1
      · funext i; fin_cases i; simp [exUs, exCfg]
      congr 1
      · funext i; fin_cases i; simp [exUs, exCfg]
      congr 1
      · funext i; fin_cases i
        show (10 / 16 : ℝ) * (16 - 0) + 0 = 10
        norm_num
      congr 1
      · funext i; fin_cases i
        show (11 / 16 : ℝ) * (16 - 0) + 0 = 11
        norm_num
    unfold reset
    exact congrArg (fun l => (⟨l, [], none, [], [], none, 0, 0, 0⟩ : Nest 1)) this
  have c1 : clip ![(0 : ℝ)] ![16] ![0] = ![0] := by funext i; fin_cases i; simp [clip]
  have b1 : ((12 : ℝ) == 11) = false := beq_eq_false_iff_ne.2 (by norm_num)
  have b2 : ((2 : ℝ) == 1) = false := beq_eq_false_iff_ne.2 (by norm_num)
  have ht : exLive.map exCfg.target = [12, 11, 2, 1] := by norm_num [exLive, exCfg]
  have s0 : ∀ l v, step exCfg ⟨l, v, [0, 1]⟩ ⟨![0], false, []⟩
      (⟨exLive, [], none, [], [], none, 4, 0, 0⟩, [12, 11, 2, 1]) =
      .done (⟨[![0], ![0], ![10], ![11]], [], some 1, [11], [], none, 5, 0, 1⟩, [12, 12, 2, 1]) := by
    intro l v
    norm_num [step, exCfg, exLive, resample, whileScript, Nest.samples, addSample, minOf, count,
      List.idxOf, List.findIdx, List.findIdx.go, c1, b1, b2]
  have s1 : ∀ l v, step exCfg ⟨l, v, [2, 3]⟩ ⟨![0], false, []⟩
      (⟨[![0], ![0], ![10], ![11]], [], some 1, [11], [], none, 5, 0, 1⟩, [12, 12, 2, 1]) =
      .done (⟨[![0], ![0], ![10], ![0]], [![0], ![11]], none, [11, 1], [], none, 6, 0, 2⟩, [12, 12, 2, 12]) := by
    intro l v
    norm_num [step, exCfg, resample, whileScript, Nest.samples, addSample, minOf, count,
      List.idxOf, List.findIdx, List.findIdx.go, c1, b1, b2]
  rw [hr]
  have hlen : exLive.length = 4 := rfl
  simp [importanceSample, ex_clustering, perEll, forN, s0, s1, Nest.samples, ht, hlen, MHast.updateModel]
  simp [exCfg]

theorem ex_good : Good exCfg := ⟨by norm_num, by norm_num [exCfg], by norm_num [exCfg], by norm_num [exCfg]⟩

theorem ex_km : ∀ k, 0 < k → ∀ p < exCfg.N, exKm k p < k := by
  intro k hk p _
  unfold exKm
  split <;> omega

theorem ex_us : ∀ k i, 0 ≤ exUs k i ∧ exUs k i < 1 := by
  intro k i
  unfold exUs
  fin_cases k <;> norm_num

/-- **C58** is violated: a new object asked for three samples returns two. -/
theorem C58_refuted : ∃ (c : Cfg 1) (us : Fin c.N → Fin 1 → ℝ) (km : ℕ → ℕ → ℕ) (env : ℕ → Env 1) (S' : Nest 1),
    Good c ∧ (∀ k i, 0 ≤ us k i ∧ us k i < 1) ∧ (∀ k, 0 < k → ∀ p < c.N, km k p < k) ∧ NoTimeout env ∧
    importanceSample c 3 km 3 env (fun _ => 0) (reset c us) = .done S' ∧ S'.samples.length = 2 := by
  obtain ⟨S', h1, h2, -⟩ := ex_run
  exact ⟨exCfg, exUs, exKm, _, S', ex_good, ex_us, ex_km, fun i => ⟨rfl, by simp⟩, h1, by rw [h2]; rfl⟩

/-- **C58** is violated on every further call for samples that are there already: it returns more samples than before. -/
theorem C58_refuted_again (hc : Good c) {S S' : Nest d} (hS : Reach c S) {n fuel : ℕ} {km : ℕ → ℕ → ℕ} {env : ℕ → Env d}
    {idx : ℕ → ℕ} (hkm : ∀ k, 0 < k → ∀ p < c.N, km k p < k) (hn : n ≤ S.samples.length)
    (h : importanceSample c n km fuel env idx S = .done S') : max n S.samples.length < S'.samples.length := by
  obtain ⟨-, ells, -, h1, -, h2, -⟩ := C58_partial hc hS hkm h
  have : 1 ≤ ells.length * max ((n - S.samples.length) / ells.length) 1 :=
    Nat.mul_pos h1 (lt_of_lt_of_le Nat.one_pos (le_max_right _ _))
  omega

/-- **C88** is violated: the second recorded likelihood is less than the first, since the ellipsoids are worked off one
after the other. -/
theorem C88_refuted : ∃ (c : Cfg 1) (us : Fin c.N → Fin 1 → ℝ) (km : ℕ → ℕ → ℕ) (env : ℕ → Env 1) (S' : Nest 1),
    Good c ∧ (∀ k i, 0 ≤ us k i ∧ us k i < 1) ∧ (∀ k, 0 < k → ∀ p < c.N, km k p < k) ∧ NoTimeout env ∧
    importanceSample c 3 km 3 env (fun _ => 0) (reset c us) = .done S' ∧ S'.L = [11, 1] := by
  obtain ⟨S', h1, -, h3⟩ := ex_run
  exact ⟨exCfg, exUs, exKm, _, S', ex_good, ex_us, ex_km, fun i => ⟨rfl, by simp⟩, h1, h3⟩

/-- `C57_clustering` on four points: two ellipsoids with two points each. -/
example : recursiveClustering exCfg exKm 3 exLive =
      some (.ok [⟨![1 / 2], sphereVol 1, [0, 1]⟩, ⟨![21 / 2], sphereVol 1, [2, 3]⟩]) ∧
    2 ≤ exLive.length ∧ 0 < exCfg.inflate ∧ ∀ k, 0 < k → ∀ p < exLive.length, exKm k p < k :=
  ⟨ex_clustering, by simp [exLive], by norm_num [exCfg], ex_km⟩

/-- `C58_partial`, `C89_weights`: an object with two samples. -/
example : ∃ S : Nest 1, Reach exCfg S ∧ S.samples.length = 2 := by
  obtain ⟨S', h1, h2, -⟩ := ex_run
  exact ⟨S', (Reach.new _ ex_us).isDone ex_km h1, by rw [h2]; rfl⟩

/-- `C88_partial`: two live points form a single ellipsoid larger than the radius 1/100. -/
example : ∃ el : Ell 1, recursiveClustering (⟨![0], ![16], fun x => 12 - x 0, 2, 1, 1 / 100, 2⟩ : Cfg 1) exKm 1
      [![0], ![1]] = some (.ok [el]) ∧ (1 / 100 : ℝ) ^ 1 < el.vol := by
  have f0 : fit 2 [![(0 : ℝ)], ![1]] [0, 1] = _ := ex_fit (by norm_num) _
  refine ⟨⟨![0 + 1 / 2], sphereVol 1, [0, 1]⟩, ?_, ?_⟩
  · unfold recursiveClustering
    simp only [show List.range ([![(0 : ℝ)], ![1]] : List (Fin 1 → ℝ)).length = [0, 1] from rfl, f0, clustering]
    rw [if_neg (by simp), if_pos (by decide)]
  · simp only [sphereVol]
    rw [show ((1 : ℕ) : ℝ) / 2 = 1 / 2 by norm_num, Real.Gamma_one_half_eq, ← Real.sqrt_eq_rpow,
      div_self (Real.sqrt_pos.2 Real.pi_pos).ne']
    norm_num

end MultiNested
end Verif
