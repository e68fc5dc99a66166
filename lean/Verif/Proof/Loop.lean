import Verif.Model.Loop

/-!
# Lemmas on sampling loops
-/

set_option autoImplicit false

namespace Verif

section
variable {σ ι : Type*} {cond : σ → Bool} {late : ι → Bool} {body : ι → σ → σ × Option PyErr}

/-- Invariants. -/
theorem whileScript_inv (I : σ → Prop) (h : ∀ it s, I s → cond s = true → I (body it s).1) (script : List ι)
    (expired : Bool) (s : σ) (hs : I s) : I (whileScript cond late body expired script s).state := by
  induction script generalizing expired s with
  | nil =>
    unfold whileScript
    split <;> exact hs
  | cons it rest ih =>
    unfold whileScript
    split
    · rename_i hc
      have := h it s hs (by simp only [Bool.and_eq_true] at hc; exact hc.1)
      cases hb : body it s with
      | mk s' e =>
        rw [hb] at this
        cases e with
        | none => exact ih (late it) s' this
        | some e => exact this
    · exact hs

/-- Invariants that depend on the environment records of the script. -/
theorem whileScript_inv_mem (I : σ → Prop) (script : List ι) (h : ∀ it ∈ script, ∀ s, I s → cond s = true → I (body it s).1)
    (expired : Bool) (s : σ) (hs : I s) : I (whileScript cond late body expired script s).state := by
  induction script generalizing expired s with
  | nil =>
    unfold whileScript
    split <;> exact hs
  | cons it rest ih =>
    unfold whileScript
    split
    · rename_i hc
      have := h it (by simp) s hs (by simp only [Bool.and_eq_true] at hc; exact hc.1)
      cases hb : body it s with
      | mk s' e =>
        rw [hb] at this
        cases e with
        | none => exact ih (fun it hit => h it (by simp [hit])) (late it) s' this
        | some e => exact this
    · exact hs

/-- A call that returns without having seen a late clock has what it needs. -/
theorem whileScript_done {script : List ι} {expired : Bool} {s s' : σ}
    (hd : whileScript cond late body expired script s = .done s') (he : expired = false)
    (hl : ∀ it ∈ script, late it = false) : cond s' = false := by
  induction script generalizing expired s with
  | nil =>
    unfold whileScript at hd
    split at hd
    · cases hd
    · rename_i hc
      cases hd
      simpa [he] using hc
  | cons it rest ih =>
    unfold whileScript at hd
    split at hd
    · cases hb : body it s with
      | mk s1 e =>
        rw [hb] at hd
        cases e with
        | none => exact ih hd (hl it (by simp)) fun x hx => hl x (by simp [hx])
        | some e => cases hd
    · rename_i hc
      cases hd
      simpa [he] using hc

/-- If nothing is missing the loop does nothing. -/
theorem whileScript_skip {script : List ι} {expired : Bool} {s : σ} (hc : cond s = false) :
    whileScript cond late body expired script s = .done s := by
  cases script <;> simp [whileScript, hc]

/-- An expired clock stops the loop. -/
theorem whileScript_expired {script : List ι} {s : σ} :
    whileScript cond late body true script s = .done s := by
  cases script <;> simp [whileScript]

/-- Progress: if under an invariant every iteration decreases a measure and does not raise, the call returns once the
script is long enough. -/
theorem whileScript_terminates (I : σ → Prop) (μ : σ → ℕ) (script : List ι)
    (h : ∀ it ∈ script, ∀ s, I s → cond s = true → I (body it s).1 ∧ (body it s).2 = none ∧ μ (body it s).1 < μ s)
    (expired : Bool) (s : σ) (hs : I s) (hμ : cond s = true → μ s ≤ script.length) (h0 : ∀ s, I s → cond s = true → 0 < μ s) :
    ∃ s', whileScript cond late body expired script s = .done s' := by
  induction script generalizing expired s with
  | nil =>
    unfold whileScript
    split
    · rename_i hc
      have hc' : cond s = true := by simp only [Bool.and_eq_true] at hc; exact hc.1
      have := hμ hc'
      have := h0 s hs hc'
      simp at *
      omega
    · exact ⟨s, rfl⟩
  | cons it rest ih =>
    unfold whileScript
    split
    · rename_i hc
      have hc' : cond s = true := by simp only [Bool.and_eq_true] at hc; exact hc.1
      obtain ⟨h1, h2, h3⟩ := h it (by simp) s hs hc'
      cases hb : body it s with
      | mk s1 e =>
        rw [hb] at h1 h2 h3
        simp only at h1 h2 h3
        subst h2
        apply ih (fun x hx => h x (by simp [hx])) (late it) s1 h1
        intro _
        have := hμ hc'
        simp only [List.length_cons] at this
        omega
    · exact ⟨s, rfl⟩

end
/-! ### Loops whose iterations may be running -/

section
variable {σ ι : Type*}

/-- `D` holds of the object if the call returned, `R` if it raised, `J` while it is running. -/
def Out.Sat (D R J : σ → Prop) : Out σ → Prop
  | .done s => D s
  | .raised _ s => R s
  | .running s => J s

theorem Out.Sat.mono {D R J D' R' J' : σ → Prop} {o : Out σ} (h : o.Sat D R J) (hD : ∀ s, D s → D' s)
    (hR : ∀ s, R s → R' s) (hJ : ∀ s, J s → J' s) : o.Sat D' R' J' := by
  cases o with
  | done s => exact hD s h
  | raised e s => exact hR s h
  | running s => exact hJ s h

theorem Out.Sat.state {I : σ → Prop} {o : Out σ} (h : o.Sat I I I) : I o.state := by
  cases o <;> exact h

theorem forN_inv (I : ℕ → σ → Prop) (R J : σ → Prop) {f : ℕ → σ → Out σ} (n : ℕ)
    (h : ∀ i < n, ∀ s, I i s → (f i s).Sat (I (i + 1)) R J) (s : σ) (hs : I 0 s) : (forN f n s).Sat (I n) R J := by
  induction n with
  | zero => exact hs
  | succ n ih =>
    have := ih fun i hi => h i (by omega)
    simp only [forN]
    revert this
    cases forN f n s with
    | done s' => exact h n (by omega) s'
    | raised e s' => exact fun h => h
    | running s' => exact fun h => h

theorem whileOut_inv (I R J : σ → Prop) {cond : σ → Bool} {late : ι → Bool} {body : ι → σ → Out σ} (hJ : ∀ s, I s → J s)
    (script : List ι) (h : ∀ it ∈ script, ∀ s, I s → cond s = true → (body it s).Sat I R J) (expired : Bool) (s : σ)
    (hs : I s) : (whileOut cond late body expired script s).Sat I R J := by
  induction script generalizing expired s with
  | nil =>
    unfold whileOut
    split
    · exact hJ s hs
    · exact hs
  | cons it rest ih =>
    unfold whileOut
    split
    · rename_i hc
      have hc' : cond s = true := by
        cases hcs : cond s
        · simp [hcs] at hc
        · rfl
      have := h it List.mem_cons_self s hs hc'
      revert this
      cases body it s with
      | done s' => exact fun hb => ih (fun it hit => h it (List.mem_cons_of_mem _ hit)) _ s' hb
      | raised e s' => exact fun h => h
      | running s' => exact fun h => h
    · exact hs

/-- With a clock that never expires the loop only ends when its condition is false. -/
theorem whileOut_done {cond : σ → Bool} {late : ι → Bool} {body : ι → σ → Out σ} {script : List ι} {expired : Bool}
    {s s' : σ} (hd : whileOut cond late body expired script s = .done s') (he : expired = false)
    (hl : ∀ it ∈ script, late it = false) : cond s' = false := by
  induction script generalizing expired s with
  | nil =>
    unfold whileOut at hd
    split at hd
    · cases hd
    · rename_i hc
      cases hd
      simpa [he] using hc
  | cons it rest ih =>
    unfold whileOut at hd
    split at hd
    · revert hd
      cases body it s with
      | done s1 =>
        intro hd
        exact ih hd (hl it List.mem_cons_self) fun it hit => hl it (List.mem_cons_of_mem _ hit)
      | raised e s1 => intro hd; cases hd
      | running s1 => intro hd; cases hd
    · rename_i hc
      cases hd
      simpa [he] using hc

theorem whileOut_skip {cond : σ → Bool} {late : ι → Bool} {body : ι → σ → Out σ} {script : List ι} {expired : Bool}
    {s : σ} (hc : cond s = false) : whileOut cond late body expired script s = .done s := by
  cases script <;> simp [whileOut, hc]

end

end Verif
