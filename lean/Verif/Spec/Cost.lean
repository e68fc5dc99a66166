import Mathlib.Data.List.Basic

/-!
How much a computation can learn about a function it is given: it looks at `p` in at most `k` places when there are `k`
points such that replacing `p` with a function that has the same values at these points changes nothing in the outcome.
-/

set_option autoImplicit false

namespace Verif

/-- The outcome of `f` on `p` is determined by at most `k` values of `p`. -/
def LooksAt {α β γ : Type*} (f : (α → β) → γ) (p : α → β) (k : ℕ) : Prop :=
  ∃ pts : List α, pts.length ≤ k ∧ ∀ p' : α → β, (∀ x ∈ pts, p' x = p x) → f p' = f p

/-- Two values of the function cannot be had by looking once. -/
example : ¬ LooksAt (fun t : ℕ → ℕ => (t 0, t 1)) (fun _ => 0) 1 := by
  rintro ⟨pts, hl, h⟩
  have h0 : 0 ∈ pts := by
    by_contra hn
    have := h (fun x => if x = 0 then 1 else 0) (fun x hx => if_neg (by rintro rfl; exact hn hx))
    simp at this
  have h1 : 1 ∈ pts := by
    by_contra hn
    have := h (fun x => if x = 1 then 1 else 0) (fun x hx => if_neg (by rintro rfl; exact hn hx))
    simp at this
  match pts, hl with
  | [], _ => simp at h0
  | [x], _ => simp at h0 h1; omega
  | _ :: _ :: _, hl => simp at hl

example : LooksAt (fun t : ℕ → ℕ => (t 0, t 1, t 0)) (fun _ => 0) 2 :=
  ⟨[0, 1], by simp, fun p' h => by simp [h 0 (by simp), h 1 (by simp)]⟩

end Verif
