import Verif.Spec.Nested
import Verif.Proof.Loop

/-!
# Nested sampling: what an iteration does
-/

set_option linter.unusedSectionVars false
set_option autoImplicit false

namespace Verif
namespace Nested

variable {d : ℕ} {c : Cfg d}

theorem getD_lt {α : Type*} (l : List α) (a : α) {k : ℕ} (h : k < l.length) : l.getD k a = l[k] := by
  simp [List.getD, h]

theorem minOf_le (vs : List ℝ) : ∀ v, minOf v vs ≤ v ∧ ∀ w ∈ vs, minOf v vs ≤ w := by
  induction vs with
  | nil => intro v; simp [minOf]
  | cons w vs ih =>
    intro v
    have h := ih (min v w)
    simp only [minOf, List.foldl_cons] at h ⊢
    refine ⟨h.1.trans (min_le_left _ _), ?_⟩
    intro u hu
    rcases List.mem_cons.1 hu with rfl | hu
    · exact h.1.trans (min_le_right _ _)
    · exact h.2 u hu

theorem minOf_mem (vs : List ℝ) : ∀ v, minOf v vs ∈ v :: vs := by
  induction vs with
  | nil => intro v; simp [minOf]
  | cons w vs ih =>
    intro v
    have h := ih (min v w)
    simp only [minOf, List.foldl_cons, List.mem_cons] at h ⊢
    rcases h with h | h
    · rcases min_choice v w with h' | h' <;> rw [h'] at h
      · left; rw [h']; exact h
      · right; left; rw [h']; exact h
    · right; right; exact h

/-- Same object except for the counters. -/
structure Same (S S' : Nest d) : Prop where
  live : S'.live = S.live
  own : S'.own = S.own
  view : S'.view = S.view
  L : S'.L = S.L
  weights : S'.weights = S.weights
  kde : S'.kde = S.kde

theorem Same.samples {S S' : Nest d} (h : Same S S') : S'.samples = S.samples := by
  unfold Nest.samples
  rw [h.live, h.own, h.view]

theorem Same.refl (S : Nest d) : Same S S := ⟨rfl, rfl, rfl, rfl, rfl, rfl⟩

/-- The candidates of `resample`. -/
def Cand (c : Cfg d) (x : Fin d → ℝ) (e : Env d) (y : Fin d → ℝ) : Prop :=
  y = clip c.lo c.hi (e.z0 + x) ∨ ∃ t ∈ e.tries, y = t.z + x

theorem resample_inv (x : Fin d → ℝ) (value : ℝ) (e : Env d) (S : Nest d) :
    Same S (resample c x value e S).state.1 ∧
    (resample c x value e S).state.2.2 = c.target (resample c x value e S).state.2.1 ∧
    Cand c x e (resample c x value e S).state.2.1 := by
  unfold resample
  refine whileScript_inv_mem (fun p : Nest d × (Fin d → ℝ) × ℝ => Same S p.1 ∧ p.2.2 = c.target p.2.1 ∧ Cand c x e p.2.1)
    e.tries ?_ _ _ ?_
  · rintro t ht p ⟨h1, -, -⟩ -
    exact ⟨⟨h1.live, h1.own, h1.view, h1.L, h1.weights, h1.kde⟩, rfl, Or.inr ⟨t, ht, rfl⟩⟩
  · exact ⟨⟨rfl, rfl, rfl, rfl, rfl, rfl⟩, rfl, Or.inl rfl⟩

theorem resample_no_raise (x : Fin d → ℝ) (value : ℝ) (e : Env d) (S : Nest d) (err : PyErr) (p) :
    resample c x value e S ≠ .raised err p := by
  unfold resample
  simp only
  generalize (count S, clip c.lo c.hi (e.z0 + x), c.target (clip c.lo c.hi (e.z0 + x))) = s
  generalize e.expired = b
  induction e.tries generalizing s b with
  | nil =>
    unfold whileScript
    split <;> simp
  | cons t ts ih =>
    unfold whileScript
    split
    · exact ih _ _
    · simp

theorem resample_done {x : Fin d → ℝ} {value : ℝ} {e : Env d} {S : Nest d} {p}
    (h : resample c x value e S = .done p) (h1 : e.expired = false) (h2 : ∀ t ∈ e.tries, t.late = false) :
    value ≤ p.2.2 := by
  have := whileScript_done h h1 h2
  simpa using this

/-- What one iteration does to object and local values. -/
structure StepSpec (c : Cfg d) (e : Env d) (S : Nest d) (p : Nest d × List ℝ) (k : ℕ) (x x' y : Fin d → ℝ) : Prop where
  lt : k < S.live.length
  x_eq : S.live.getD k 0 = x
  x_mem : x ∈ S.live
  least : ∀ z ∈ S.live, c.target x ≤ c.target z
  samples : p.1.samples = S.samples ++ [if S.samples = [] then y else x]
  L : p.1.L = S.L ++ [c.target x]
  live : p.1.live = S.live.set k y
  vals : p.2 = p.1.live.map c.target
  near : x' ∈ S.live
  cand : Cand c x' e y
  view : ∀ i, p.1.view = some i → i < S.live.length

theorem samples_nil_view {S : Nest d} (h : S.samples = []) : S.view = none ∧ S.own = [] := by
  unfold Nest.samples at h
  cases hv : S.view with
  | none => rw [hv] at h; exact ⟨rfl, h⟩
  | some i => rw [hv] at h; cases h

theorem step_done {e : Env d} {S : Nest d} {p : Nest d × List ℝ} (h : step c e (S, S.live.map c.target) = .done p) :
    ∃ k x x' y, StepSpec c e S p k x x' y ∧
      (e.expired = false → (∀ t ∈ e.tries, t.late = false) → c.target x ≤ c.target y) ∧
      p.1.weights = S.weights ∧ p.1.kde = S.kde := by
  cases hl : S.live.map c.target with
  | nil => rw [hl] at h; cases h
  | cons v vs =>
    rw [hl] at h
    simp only [step] at h
    set m := minOf v vs with hm
    set k := (v :: vs).idxOf m with hk
    have hkl : k < (v :: vs).length := List.idxOf_lt_length_iff.2 (minOf_mem vs v)
    have hkS : k < S.live.length := by
      rw [← hl, List.length_map] at hkl
      exact hkl
    have hx : c.target (S.live.getD k 0) = m := by
      have h1 : (v :: vs)[k] = m := List.getElem_idxOf hkl
      have h2 : (v :: vs)[k] = (S.live.map c.target)[k]'(by rw [List.length_map]; exact hkS) := by
        simp only [hl]
      rw [getD_lt _ _ hkS]
      rw [h2, List.getElem_map] at h1
      exact h1
    have hleast : ∀ z ∈ S.live, m ≤ c.target z := by
      intro z hz
      have : c.target z ∈ v :: vs := by rw [← hl]; exact List.mem_map_of_mem hz
      rcases List.mem_cons.1 this with h' | h'
      · rw [h']; exact (minOf_le vs v).1
      · exact (minOf_le vs v).2 _ h'
    have hlive : (addSample k S).live = S.live := by unfold addSample; split <;> rfl
    have hLadd : (addSample k S).L = S.L := by unfold addSample; split <;> rfl
    have hwadd : (addSample k S).weights = S.weights := by unfold addSample; split <;> rfl
    have hkadd : (addSample k S).kde = S.kde := by unfold addSample; split <;> rfl
    simp only [hlive, hLadd] at h
    set S2 : Nest d := { addSample k S with live := S.live, L := S.L ++ [m] } with hS2
    set x' := S.live.getD (e.r % S.live.length) 0 with hx'
    have hx'm : x' ∈ S.live := by
      have : e.r % S.live.length < S.live.length := Nat.mod_lt _ (by omega)
      rw [hx', getD_lt _ _ this]
      exact List.getElem_mem _
    have hinv := resample_inv (c := c) x' m e S2
    cases hr : resample c x' m e S2 with
    | running q => rw [hr] at h; cases h
    | raised err q => rw [hr] at h; cases h
    | done q =>
      rw [hr] at h hinv
      simp only [Out.state] at hinv
      obtain ⟨hs, hv, hc⟩ := hinv
      have h := Out.done.inj h
      subst h
      have hSlive : q.1.live = S.live := hs.live
      refine ⟨k, S.live.getD k 0, x', q.2.1, ⟨hkS, rfl, ?_, ?_, ?_, ?_, ?_, ?_, hx'm, hc, ?_⟩, ?_, ?_, ?_⟩
      · rw [getD_lt _ _ hkS]
        exact List.getElem_mem _
      · intro z hz
        rw [hx]
        exact hleast z hz
      · have hvw : q.1.view = (addSample k S).view := hs.view
        have how : q.1.own = (addSample k S).own := hs.own
        show (match q.1.view with | none => q.1.own | some i => [(q.1.live.set k q.2.1).getD i 0]) = _
        rw [hvw, how, hSlive]
        by_cases h0 : S.samples = []
        · simp only [addSample, h0, if_true, List.nil_append]
          rw [getD_lt _ _ (by simpa using hkS)]
          simp
        · simp only [addSample, h0, if_false]
      · show q.1.L = _
        rw [hs.L, hx]
      · show q.1.live.set k _ = _
        rw [hSlive]
      · show (v :: vs).set k q.2.2 = (q.1.live.set k q.2.1).map c.target
        rw [hSlive, List.map_set, hl, hv]
      · intro i hi
        have hi : q.1.view = some i := hi
        rw [hs.view] at hi
        have hi : (addSample k S).view = some i := hi
        unfold addSample at hi
        split at hi
        · cases hi; exact hkS
        · cases hi
      · intro h1 h2
        rw [hx, ← hv]
        exact resample_done hr h1 h2
      · show q.1.weights = _
        rw [hs.weights]
        exact hwadd
      · show q.1.kde = _
        rw [hs.kde]
        exact hkadd

end Nested
end Verif
