import Verif.Spec.Cost
import Verif.Model.Loop
import Mathlib.Order.Basic
import Mathlib.Data.Nat.Notation
import Mathlib.Order.Defs.PartialOrder
import Mathlib.Algebra.Order.Group.Nat

set_option linter.unusedSectionVars false
set_option autoImplicit false

namespace Verif

namespace LooksAt
variable {α β γ δ : Type*} {p : α → β}

theorem mono {f : (α → β) → γ} {k l : ℕ} (h : LooksAt f p k) (hkl : k ≤ l) : LooksAt f p l := by
  obtain ⟨pts, h1, h2⟩ := h
  exact ⟨pts, le_trans h1 hkl, h2⟩

theorem const (c : γ) (k : ℕ) : LooksAt (fun _ : α → β => c) p k := ⟨[], Nat.zero_le _, fun _ _ => rfl⟩

theorem comp {f : (α → β) → γ} {k : ℕ} (h : LooksAt f p k) (g : γ → δ) : LooksAt (fun t => g (f t)) p k := by
  obtain ⟨pts, h1, h2⟩ := h
  exact ⟨pts, h1, fun p' hp => by simp only [h2 p' hp]⟩

theorem bind {f : (α → β) → γ} {g : (α → β) → γ → δ} {k l : ℕ} (h : LooksAt f p k)
    (h' : LooksAt (fun t => g t (f p)) p l) : LooksAt (fun t => g t (f t)) p (k + l) := by
  obtain ⟨pts, h1, h2⟩ := h
  obtain ⟨pts', h1', h2'⟩ := h'
  refine ⟨pts ++ pts', by simp; omega, fun p' hp => ?_⟩
  have e := h2 p' fun x hx => hp x (by simp [hx])
  have e' := h2' p' fun x hx => hp x (by simp [hx])
  simp only at e' ⊢
  rw [e, e']

end LooksAt

/-- A computation started with `a` on the counter pays for what it looks at: the counter grows at least by the number
of places. -/
def Pays {α β γ : Type*} (p : α → β) (a : ℕ) (cost : γ → ℕ) (f : (α → β) → γ) : Prop :=
  ∃ k, a + k ≤ cost (f p) ∧ LooksAt f p k

namespace Pays
variable {α β γ δ : Type*} {p : α → β} {a : ℕ} {cost : γ → ℕ} {cost' : δ → ℕ} {f : (α → β) → γ}

theorem le (h : Pays p a cost f) : a ≤ cost (f p) := by
  obtain ⟨k, h, _⟩ := h
  omega

theorem looksAt (h : Pays p a cost f) : LooksAt f p (cost (f p) - a) := by
  obtain ⟨k, h, h'⟩ := h
  exact h'.mono (by omega)

theorem const {c : γ} (h : a ≤ cost c) : Pays p a cost (fun _ => c) := ⟨0, by simpa using h, LooksAt.const _ _⟩

theorem bind {g : (α → β) → γ → δ} (h : Pays p a cost f) (h' : Pays p (cost (f p)) cost' (fun t => g t (f p))) :
    Pays p a cost' (fun t => g t (f t)) := by
  obtain ⟨k, h1, h2⟩ := h
  obtain ⟨l, h3, h4⟩ := h'
  exact ⟨k + l, by simp only at h3 ⊢; omega, LooksAt.bind h2 h4⟩

theorem comp (h : Pays p a cost f) {g : γ → δ} (hg : cost (f p) ≤ cost' (g (f p))) :
    Pays p a cost' (fun t => g (f t)) := by
  obtain ⟨k, h1, h2⟩ := h
  exact ⟨k, le_trans h1 hg, h2.comp g⟩

theorem after (h : Pays p a cost f) {g : γ → δ} (hg : ∀ r, cost r ≤ cost' (g r)) : Pays p a cost' (fun t => g (f t)) :=
  h.comp (hg _)

/-- A computation that looks at the points `xs` and counts them. -/
theorem points (xs : List α) (hf : ∀ p', (∀ x ∈ xs, p' x = p x) → f p' = f p) (h : a + xs.length ≤ cost (f p)) :
    Pays p a cost f := ⟨xs.length, h, xs, le_refl _, hf⟩

end Pays

variable {α β σ ι : Type*} {p : α → β} {cost : σ → ℕ}

theorem pays_whileScript {cond : σ → Bool} {late : ι → Bool} {body : (α → β) → ι → σ → σ × Option PyErr}
    (h : ∀ it s, Pays p (cost s) (fun r => cost r.1) (fun t => body t it s)) : ∀ (script : List ι) (expired : Bool) (s : σ),
    Pays p (cost s) (fun o : Out σ => cost o.state) (fun t => whileScript cond late (body t) expired script s)
  | [], expired, s => by
    simp only [whileScript]
    apply Pays.const
    split <;> simp [Out.state]
  | it :: rest, expired, s => by
    simp only [whileScript]
    by_cases hc : (cond s && !expired) = true
    · simp only [hc, if_true]
      refine Pays.bind (g := fun t r => match r with
            | (s', none) => whileScript cond late (body t) (late it) rest s'
            | (s', some e) => .raised e s') (h it s) ?_
      rcases hb : body p it s with ⟨s', _ | e⟩
      · exact pays_whileScript h rest (late it) s'
      · exact Pays.const (le_refl _)
    · simp only [hc, Bool.false_eq_true, if_false]
      exact Pays.const (le_refl _)

theorem pays_whileOut {cond : σ → Bool} {late : ι → Bool} {body : (α → β) → ι → σ → Out σ}
    (h : ∀ it s, Pays p (cost s) (fun r : Out σ => cost r.state) (fun t => body t it s)) :
    ∀ (script : List ι) (expired : Bool) (s : σ),
    Pays p (cost s) (fun o : Out σ => cost o.state) (fun t => whileOut cond late (body t) expired script s)
  | [], expired, s => by
    simp only [whileOut]
    apply Pays.const
    split <;> simp [Out.state]
  | it :: rest, expired, s => by
    simp only [whileOut]
    by_cases hc : (cond s && !expired) = true
    · simp only [hc, if_true]
      refine Pays.bind (g := fun t r => match r with
            | .done s' => whileOut cond late (body t) (late it) rest s'
            | .raised e s' => .raised e s'
            | .running s' => .running s') (h it s) ?_
      cases hb : body p it s with
      | done s' => exact pays_whileOut h rest (late it) s'
      | raised e s' => exact Pays.const (le_refl _)
      | running s' => exact Pays.const (le_refl _)
    · simp only [hc, Bool.false_eq_true, if_false]
      exact Pays.const (le_refl _)

theorem pays_forN {f : (α → β) → ℕ → σ → Out σ}
    (h : ∀ i s, Pays p (cost s) (fun r : Out σ => cost r.state) (fun t => f t i s)) :
    ∀ (n : ℕ) (s : σ), Pays p (cost s) (fun o : Out σ => cost o.state) (fun t => forN (f t) n s)
  | 0, s => by
    simp only [forN]
    exact Pays.const (le_refl _)
  | n + 1, s => by
    simp only [forN]
    refine Pays.bind (g := fun t r => match r with
          | .done s' => f t n s'
          | .raised e s' => .raised e s'
          | .running s' => .running s') (pays_forN h n s) ?_
    cases hb : forN (f p) n s with
    | done s' => exact h n s'
    | raised e s' => exact Pays.const (le_refl _)
    | running s' => exact Pays.const (le_refl _)

/-- The same for a computation that may raise: nothing is claimed when it does. -/
def PaysOk {α β γ : Type*} (p : α → β) (a : ℕ) (cost : γ → ℕ) (f : (α → β) → Except PyErr γ) : Prop :=
  ∀ r, f p = .ok r → ∃ k, a + k ≤ cost r ∧ LooksAt f p k

namespace PaysOk
variable {α β γ δ : Type*} {p : α → β} {a : ℕ} {cost : γ → ℕ} {cost' : δ → ℕ} {f : (α → β) → Except PyErr γ}

theorem le (h : PaysOk p a cost f) {r : γ} (hr : f p = .ok r) : a ≤ cost r := by
  obtain ⟨k, h, _⟩ := h r hr
  omega

theorem looksAt (h : PaysOk p a cost f) {r : γ} (hr : f p = .ok r) : LooksAt f p (cost r - a) := by
  obtain ⟨k, h, h'⟩ := h r hr
  exact h'.mono (by omega)

theorem const {c : Except PyErr γ} (h : ∀ r, c = .ok r → a ≤ cost r) : PaysOk p a cost (fun _ => c) :=
  fun r hr => ⟨0, by simpa using h r hr, LooksAt.const _ _⟩

theorem bind {g : (α → β) → γ → Except PyErr δ} (h : PaysOk p a cost f)
    (h' : ∀ r, f p = .ok r → PaysOk p (cost r) cost' (fun t => g t r)) :
    PaysOk p a cost' (fun t => (f t).bind (g t)) := by
  intro r hr
  cases hf : f p with
  | error e => simp [hf, Except.bind] at hr
  | ok x =>
    simp only [hf, Except.bind] at hr
    obtain ⟨k, h1, h2⟩ := h x hf
    obtain ⟨l, h3, h4⟩ := h' x hf r hr
    refine ⟨k + l, by omega, LooksAt.bind (g := fun t y => Except.bind y (g t)) h2 ?_⟩
    simp only [hf, Except.bind]
    exact h4

/-- A computation that looks at the points `xs` and counts them. -/
theorem points (xs : List α) (hf : ∀ p', (∀ x ∈ xs, p' x = p x) → f p' = f p)
    (h : ∀ r, f p = .ok r → a + xs.length ≤ cost r) : PaysOk p a cost f :=
  fun r hr => ⟨xs.length, h r hr, xs, le_refl _, hf⟩

end PaysOk

end Verif
