import Verif.Spec.AISRounds
import Verif.Props.AIS

/-!
# Property C122: the weights of DM-AIS and layered AIS over several batches

Unlike M-PMC (C120) these samplers keep the weights as they are and normalise all of them when they return.
-/

set_option linter.unusedSectionVars false
set_option autoImplicit false

namespace Verif

variable {K : Type*} [Field K] [LinearOrder K] [IsStrictOrderedRing K] {d : ℕ}

namespace AIS

/-- What is stored, sample by sample. -/
def Stored (N b : ℕ) (qv : (Fin d → K) → (Fin d → K) → K) (t : (Fin d → K) → K) (past : List (AIS K d)) (S : AIS K d) : Prop :=
  S.samples.length = past.length * b ∧ S.weights.length = past.length * b ∧
  ∀ i < past.length * b, ∃ x R, S.samples[i]? = some x ∧ past[i / b]? = some R ∧ 0 < mixVal qv R.centers N x ∧
    R.prob (fun c x => XF.fin (qv c x)) x = .fin (mixVal qv R.centers N x) ∧
    S.weights[i]? = some (.fin (t x / mixVal qv R.centers N x))

theorem stored_append {N b : ℕ} (hN : 0 < N) {qv : (Fin d → K) → (Fin d → K) → K} (hq : ∀ c x, 0 < qv c x)
    {t : (Fin d → K) → K} {past : List (AIS K d)} {S S' : AIS K d} (h : Stored N b qv t past S)
    (hc : S.centers.length = N) (hm : S.modelWeights = List.replicate N (XF.fin (1 / (N : K)))) (new : List (Fin d → K))
    (hl : new.length = b) (h1 : S'.samples = S.samples ++ new)
    (h2 : S'.weights = S.weights ++ new.map fun x => XF.fin (t x / mixVal qv S.centers N x)) :
    Stored N b qv t (past ++ [S]) S' := by
  obtain ⟨e1, e2, e3⟩ := h
  refine ⟨by rw [h1]; simp [e1, hl]; ring, by rw [h2]; simp [e2, hl]; ring, ?_⟩
  intro i hi
  simp only [List.length_append, List.length_singleton, Nat.add_mul, one_mul] at hi
  by_cases hlt : i < past.length * b
  · obtain ⟨x, R, g1, g2, g3, g4, g5⟩ := e3 i hlt
    refine ⟨x, R, ?_, ?_, g3, g4, ?_⟩
    · rw [h1, List.getElem?_append_left (by omega), g1]
    · rw [List.getElem?_append_left (List.getElem?_eq_some_iff.1 g2).1, g2]
    · rw [h2, List.getElem?_append_left (by omega), g5]
  · have hb : 0 < b := by omega
    have hk : i - past.length * b < new.length := by omega
    have hdiv : i / b = past.length := by
      rw [Nat.div_eq_iff hb]
      constructor
      · rw [Nat.mul_comm] at *; omega
      · have : past.length * b = b * past.length := Nat.mul_comm _ _
        omega
    refine ⟨new[i - past.length * b], S, ?_, ?_, mixVal_pos qv hq _ N hN hc _, prob_fin qv S N hc hm _, ?_⟩
    · rw [h1, List.getElem?_append_right (by omega), e1, List.getElem?_eq_getElem hk]
    · rw [hdiv, List.getElem?_append_right le_rfl]; simp
    · rw [h2, List.getElem?_append_right (by omega), e2, List.getElem?_map, List.getElem?_eq_getElem hk]; rfl

theorem stored_keep {N b : ℕ} {qv : (Fin d → K) → (Fin d → K) → K} {t : (Fin d → K) → K} {past : List (AIS K d)}
    {S S' : AIS K d} (h : Stored N b qv t past S) (h1 : S'.samples = S.samples) (h2 : S'.weights = S.weights) :
    Stored N b qv t past S' := by
  unfold Stored
  rw [h1, h2]
  exact h

theorem dm_stored {N k : ℕ} (hN : 0 < N) {lo hi : Fin d → K} {qv : (Fin d → K) → (Fin d → K) → K} (hq : ∀ c x, 0 < qv c x)
    {t : (Fin d → K) → K} (ht : ∀ x, 0 ≤ t x) {past : List (AIS K d)} {S : AIS K d}
    (h : Rounds N lo hi (DM.body N k (fun c x => XF.fin (qv c x)) fun x => XF.fin (t x)) past S) :
    DM.Good N S ∧ Stored N (N * k) qv t past S := by
  induction h with
  | reset u S h => exact ⟨DM.reach_good (k := k) hN hq (.reset u S h), by
      rw [reset_ok N hN] at h; cases h; exact ⟨by simp, by simp, by simp⟩⟩
  | round past S S' h it hb ih =>
    obtain ⟨g, h, -⟩ := DM.body_good (k := k) hN hq ht it S ih.1
    rw [hb] at g h
    rcases h with ⟨h, -⟩ | ⟨-, -, -, h1, h2⟩
    · cases h
    · exact ⟨g, stored_append hN hq ih.2 ih.1.centers ih.1.model _ (batch_length N k it.pts) h1 h2⟩
  | raised past S S' h it e hb ih =>
    obtain ⟨g, h, -⟩ := DM.body_good (k := k) hN hq ht it S ih.1
    rw [hb] at g h
    rcases h with ⟨-, -, h1, h2, -⟩ | ⟨h, -⟩
    · exact ⟨g, stored_keep ih.2 h1 h2⟩
    · cases h

theorem lais_stored {N k L : ℕ} (hN : 0 < N) {lo hi : Fin d → K} {qv : (Fin d → K) → (Fin d → K) → K}
    (hq : ∀ c x, 0 < qv c x) {t : (Fin d → K) → K} {past : List (AIS K d)} {S : AIS K d}
    (h : Rounds N lo hi (LAIS.body N k L lo hi (fun c x => XF.fin (qv c x)) fun x => XF.fin (t x)) past S) :
    LAIS.Good N S ∧ Stored N (N * k) qv t past S := by
  induction h with
  | reset u S h =>
    rw [reset_ok N hN] at h
    cases h
    exact ⟨⟨by simp, rfl, rfl⟩, by simp, by simp, by simp⟩
  | round past S S' h it hb ih =>
    obtain ⟨g, h⟩ := LAIS.body_good (k := k) (L := L) (lo := lo) (hi := hi) (q := fun c x => XF.fin (qv c x))
      (target := fun x => XF.fin (t x)) it S ih.1
    rw [hb] at g h
    rcases h with ⟨-, h, -⟩ | ⟨-, -, h1, h2, -⟩
    · cases h
    · refine ⟨g, stored_append hN hq ih.2 ih.1.centers ih.1.model _ (batch_length N k it.pts) h1 ?_⟩
      rw [h2]
      congr 1
      apply List.map_congr_left
      intro x _
      unfold weigh
      rw [prob_fin qv _ N ih.1.centers ih.1.model]
      exact XF.fin_div_ne _ _ (mixVal_pos qv hq _ N hN ih.1.centers x).ne'
  | raised past S S' h it e hb ih =>
    obtain ⟨g, h⟩ := LAIS.body_good (k := k) (L := L) (lo := lo) (hi := hi) (q := fun c x => XF.fin (qv c x))
      (target := fun x => XF.fin (t x)) it S ih.1
    rw [hb] at g h
    rcases h with ⟨-, -, h1⟩ | ⟨-, h, -⟩
    · simp only at h1
      exact ⟨g, stored_keep ih.2 (by rw [h1]) (by rw [h1])⟩
    · cases h

/-- From what is stored to what is returned. -/
theorem stored_scale {N b : ℕ} {qv : (Fin d → K) → (Fin d → K) → K} {t : (Fin d → K) → K} (ht : ∀ x, 0 ≤ t x)
    {past : List (AIS K d)} {S : AIS K d} (h : Stored N b qv t past S) (hp : ∃ x ∈ S.samples, 0 < t x) :
    (∀ i < past.length * b, ∃ w p q, Drawn b qv t past S i w p q ∧ 0 < q ∧ 0 ≤ w ∧ (w = 0 ↔ p = 0)) ∧
    ∀ i j, SameScale b qv t past S i j := by
  obtain ⟨e1, e2, e3⟩ := h
  obtain ⟨ws, hws⟩ : ∃ ws : List K, S.weights = ws.map XF.fin := by
    have : ∀ w ∈ S.weights, ∃ v : K, XF.fin v = w := by
      intro w hw
      obtain ⟨i, hi, rfl⟩ := List.mem_iff_getElem.1 hw
      obtain ⟨x, R, -, -, -, -, g⟩ := e3 i (by omega)
      rw [List.getElem?_eq_getElem hi] at g
      exact ⟨_, (Option.some.inj g).symm⟩
    choose! f hf using this
    refine ⟨S.weights.map f, ?_⟩
    rw [List.map_map]
    conv_lhs => rw [← List.map_id S.weights]
    exact List.map_congr_left fun w hw => (hf w hw).symm
  have hnn : ∀ v ∈ ws, 0 ≤ v := by
    intro v hv
    obtain ⟨i, hi, rfl⟩ := List.mem_iff_getElem.1 hv
    obtain ⟨x, R, -, -, g3, -, g⟩ := e3 i (by rw [← e2, hws]; simpa using hi)
    rw [hws, List.getElem?_map, List.getElem?_eq_getElem hi] at g
    have : ws[i] = t x / mixVal qv R.centers N x := by simpa using g
    rw [this]
    exact div_nonneg (ht x) g3.le
  have hpos : 0 < ws.sum := by
    obtain ⟨x, hx, hpx⟩ := hp
    obtain ⟨i, hi, rfl⟩ := List.mem_iff_getElem.1 hx
    obtain ⟨x, R, g1, -, g3, -, g⟩ := e3 i (by omega)
    rw [List.getElem?_eq_getElem hi] at g1
    cases g1
    rw [hws, List.getElem?_map] at g
    obtain ⟨v, hv, hv'⟩ := Option.map_eq_some_iff.1 g
    cases hv'
    exact lt_of_lt_of_le (div_pos hpx g3) (List.single_le_sum hnn _ (List.mem_of_getElem? hv))
  have hret : ∀ i < past.length * b, ∃ x R, S.samples[i]? = some x ∧ past[i / b]? = some R ∧ 0 < mixVal qv R.centers N x ∧
      R.prob (fun c x => XF.fin (qv c x)) x = .fin (mixVal qv R.centers N x) ∧
      S.returned.2[i]? = some (.fin (t x / mixVal qv R.centers N x / ws.sum)) := by
    intro i hi
    obtain ⟨x, R, g1, g2, g3, g4, g5⟩ := e3 i hi
    refine ⟨x, R, g1, g2, g3, g4, ?_⟩
    unfold returned
    simp only [List.getElem?_map, g5, Option.map_some]
    rw [hws, XF.sum_map_fin, XF.fin_div_ne _ _ hpos.ne']
  refine ⟨?_, ?_⟩
  · intro i hi
    obtain ⟨x, R, g1, g2, g3, g4, g5⟩ := hret i hi
    refine ⟨_, _, _, ⟨x, R, g1, g5, rfl, g2, g4⟩, g3, div_nonneg (div_nonneg (ht x) g3.le) hpos.le, ?_⟩
    rw [div_eq_zero_iff, or_iff_left hpos.ne', div_eq_zero_iff, or_iff_left g3.ne']
  · rintro i j w p q w' p' q' ⟨x, R, a1, a2, rfl, a3, a4⟩ ⟨x', R', b1, b2, rfl, b3, b4⟩
    have hi : i < past.length * b := by rw [← e1]; exact (List.getElem?_eq_some_iff.1 a1).1
    have hj : j < past.length * b := by rw [← e1]; exact (List.getElem?_eq_some_iff.1 b1).1
    obtain ⟨y, Q, c1, c2, c3, c4, c5⟩ := hret i hi
    obtain ⟨y', Q', d1, d2, d3, d4, d5⟩ := hret j hj
    have a1' : S.samples[i]? = some x := a1
    have b1' : S.samples[j]? = some x' := b1
    rw [a1'] at c1; cases c1
    rw [b1'] at d1; cases d1
    rw [a3] at c2; cases c2
    rw [b3] at d2; cases d2
    rw [a4] at c4; cases c4
    rw [b4] at d4; cases d4
    rw [a2] at c5; cases c5
    rw [b2] at d5; cases d5
    ring

/-- Calls are sequences of iterations, the last of which may have raised. -/
theorem rounds_call {I : Type*} {N : ℕ} {lo hi : Fin d → K} {body : I → AIS K d → AIS K d × Option PyErr}
    (cond : AIS K d → Bool) (late : I → Bool) (expired : Bool) (script : List I) {past : List (AIS K d)} {S : AIS K d}
    (h : Rounds N lo hi body past S) :
    ∃ more, Rounds N lo hi body (past ++ more) (whileScript cond late body expired script S).state := by
  refine whileScript_inv (fun S => ∃ more, Rounds N lo hi body (past ++ more) S) ?_ script expired S ⟨[], by simpa using h⟩
  rintro it s ⟨more, h⟩ -
  cases hb : body it s with
  | mk s' e =>
    cases e with
    | none =>
      refine ⟨more ++ [s], ?_⟩
      rw [← List.append_assoc]
      exact .round _ _ _ h it hb
    | some e => exact ⟨more, .raised _ _ _ h it e hb⟩

end AIS

open AIS in
/-- **C122** for DM-AIS. However many iterations the object has completed, in however many calls, the arrays hold one batch
of `N * K` samples per completed iteration, and the returned weights of any two samples, of the same batch or not, are in
the proportion target density / density reported by the object before the sample was drawn. A call keeps the object in
this situation, whether it returns, raises or is still running. -/
theorem C122_dm {N k : ℕ} (hN : 0 < N) {lo hi : Fin d → K} {qv : (Fin d → K) → (Fin d → K) → K} (hq : ∀ c x, 0 < qv c x)
    {t : (Fin d → K) → K} (ht : ∀ x, 0 ≤ t x) {past : List (AIS K d)} {S : AIS K d}
    (h : Rounds N lo hi (DM.body N k (fun c x => XF.fin (qv c x)) fun x => XF.fin (t x)) past S) :
    S.returned.1.length = past.length * (N * k) ∧
    (∀ i < S.returned.1.length, ∃ w p q, Drawn (N * k) qv t past S i w p q ∧ 0 < q ∧ 0 ≤ w ∧ (w = 0 ↔ p = 0)) ∧
    (∀ i j, SameScale (N * k) qv t past S i j) ∧
    ∀ n expired script, ∃ more, Rounds N lo hi (DM.body N k (fun c x => XF.fin (qv c x)) fun x => XF.fin (t x)) (past ++ more)
      (DM.importanceSample N k (fun c x => XF.fin (qv c x)) (fun x => XF.fin (t x)) n expired script S).state := by
  obtain ⟨hg, hs⟩ := dm_stored hN hq ht h
  have hl : S.returned.1.length = past.length * (N * k) := hs.1
  have hp : S.samples ≠ [] → ∃ x ∈ S.samples, 0 < t x := by
    intro he
    by_contra hcon
    push Not at hcon
    obtain ⟨ws, w1, w2, w3, w4⟩ := hg.weights
    have := w4 he
    have hz : ws.sum = 0 := by
      apply List.sum_eq_zero
      intro v hv
      obtain ⟨i, hi, rfl⟩ := List.mem_iff_getElem.1 hv
      obtain ⟨x, R, g1, -, -, -, g⟩ := hs.2.2 i (by rw [← hs.1]; omega)
      rw [w1, List.getElem?_map, List.getElem?_eq_getElem hi] at g
      have e : ws[i] = t x / mixVal qv R.centers N x := by simpa using g
      rw [e, le_antisymm (hcon x (List.mem_of_getElem? g1)) (ht x), zero_div]
    exact absurd hz this.ne'
  refine ⟨hl, ?_, ?_, fun n expired script => rounds_call _ _ _ _ h⟩
  · intro i hi
    have hne : S.samples ≠ [] := by
      rintro he
      have hi' : i < S.samples.length := hi
      rw [he] at hi'
      simp at hi'
    exact (stored_scale ht hs (hp hne)).1 i (hl ▸ hi)
  · rintro i j w p q w' p' q' ⟨x, R, a1, a2⟩ hj
    exact (stored_scale ht hs (hp (List.ne_nil_of_mem (List.mem_of_getElem? a1)))).2 i j _ _ _ _ _ _ ⟨x, R, a1, a2⟩ hj

open AIS in
/-- **C122** for layered AIS, as soon as the target is positive at one of the samples (otherwise the weights returned are
all undefined, see C42). -/
theorem C122_lais {N k L : ℕ} (hN : 0 < N) {lo hi : Fin d → K} {qv : (Fin d → K) → (Fin d → K) → K} (hq : ∀ c x, 0 < qv c x)
    {t : (Fin d → K) → K} (ht : ∀ x, 0 ≤ t x) {past : List (AIS K d)} {S : AIS K d}
    (h : Rounds N lo hi (LAIS.body N k L lo hi (fun c x => XF.fin (qv c x)) fun x => XF.fin (t x)) past S) :
    S.returned.1.length = past.length * (N * k) ∧
    ((∃ x ∈ S.returned.1, 0 < t x) →
      (∀ i < S.returned.1.length, ∃ w p q, Drawn (N * k) qv t past S i w p q ∧ 0 < q ∧ 0 ≤ w ∧ (w = 0 ↔ p = 0)) ∧
      (∀ i j, SameScale (N * k) qv t past S i j)) ∧
    ∀ n expired script, ∃ more, Rounds N lo hi (LAIS.body N k L lo hi (fun c x => XF.fin (qv c x)) fun x => XF.fin (t x))
      (past ++ more) (LAIS.importanceSample N k L lo hi (fun c x => XF.fin (qv c x)) (fun x => XF.fin (t x)) n expired script
        S).state := by
  obtain ⟨-, hs⟩ := lais_stored hN hq h
  have hl : S.returned.1.length = past.length * (N * k) := hs.1
  refine ⟨hl, fun hp => ⟨fun i hi => (stored_scale ht hs hp).1 i (hl ▸ hi), (stored_scale ht hs hp).2⟩,
    fun n expired script => rounds_call _ _ _ _ h⟩

/-! A run of each sampler with two proposals, one sample each and two completed iterations: the proposals move in between,
and the reported density at the point 0 is 3/4 before the first and 1/2 before the second iteration. The target is
`1 + x ^ 2`, and the returned weights are in proportion `1 / (3/4)` to `1 / (1/2)` at the point 0. -/

/-- Proposal density of the examples. -/
def qx (c x : Fin 1 → ℚ) : ℚ := 1 / (1 + (x 0 - c 0) ^ 2)

/-- Target of the examples. -/
def tx (x : Fin 1 → ℚ) : ℚ := 1 + x 0 ^ 2

open AIS in
example : ∃ past S, Rounds 2 ![0] ![1] (DM.body 2 1 (fun c x => XF.fin (qx c x)) fun x => XF.fin (tx x)) past S ∧
    past.length = 2 ∧ S.returned = ([![0], ![1], ![0], ![1]], [.fin (1 / 6), .fin (1 / 3), .fin (1 / 4), .fin (1 / 4)]) := by
  have h := Rounds.reset (K := ℚ) (body := DM.body 2 1 (fun c x => XF.fin (qx c x)) fun x => XF.fin (tx x)) _ _
    (reset_ok (d := 1) 2 (by norm_num) ![0] ![1] fun k => ![(k : ℚ)])
  let it : DM.Iter ℚ 1 := ⟨fun i _ => ![(i : ℚ)], fun _ j p => decide (1 ≤ p) || (decide (0 < p) && j == 1), false⟩
  obtain ⟨more, h'⟩ := (C122_dm (by norm_num) (fun c x => by unfold qx; positivity) (fun x => by unfold tx; positivity) h).2.2.2
    4 false [it, it]
  have e : (DM.importanceSample 2 1 (fun c x => XF.fin (qx c x)) (fun x => XF.fin (tx x)) 4 false [it, it]
      ⟨(List.range 2).map fun (k : ℕ) i => ![(0 : ℚ)] i + (![1] i - ![0] i) * ![(k : ℚ)] i, List.replicate 2 (.fin (1 / (2 : ℕ))),
        [], [], 0, 0, 0⟩).state.returned =
      ([![0], ![1], ![0], ![1]], [.fin (1 / 6), .fin (1 / 3), .fin (1 / 4), .fin (1 / 4)]) := by decide +kernel
  refine ⟨_, _, h', ?_, e⟩
  have hl := (C122_dm (by norm_num) (fun c x => by unfold qx; positivity) (fun x => by unfold tx; positivity) h').1
  rw [e] at hl
  simp at hl ⊢
  omega

open AIS in
example : ∃ past S, Rounds 2 ![0] ![1] (LAIS.body 2 1 1 ![0] ![1] (fun c x => XF.fin (qx c x)) fun x => XF.fin (tx x)) past S ∧
    past.length = 2 ∧ S.returned = ([![0], ![1], ![0], ![1]], [.fin (1 / 6), .fin (1 / 3), .fin (1 / 4), .fin (1 / 4)]) := by
  have h := Rounds.reset (K := ℚ) (body := LAIS.body 2 1 1 ![0] ![1] (fun c x => XF.fin (qx c x)) fun x => XF.fin (tx x)) _ _
    (reset_ok (d := 1) 2 (by norm_num) ![0] ![1] fun k => ![(k : ℚ)])
  let it : LAIS.Iter ℚ 1 := ⟨fun i _ => ![(i : ℚ)], fun _ _ => ![2], fun _ _ => 1 / 2, false⟩
  obtain ⟨more, h'⟩ := (C122_lais (by norm_num) (fun c x => by unfold qx; positivity) (fun x => by unfold tx; positivity) h).2.2
    4 false [it, it]
  have e : (LAIS.importanceSample 2 1 1 ![0] ![1] (fun c x => XF.fin (qx c x)) (fun x => XF.fin (tx x)) 4 false [it, it]
      ⟨(List.range 2).map fun (k : ℕ) i => ![(0 : ℚ)] i + (![1] i - ![0] i) * ![(k : ℚ)] i, List.replicate 2 (.fin (1 / (2 : ℕ))),
        [], [], 0, 0, 0⟩).state.returned =
      ([![0], ![1], ![0], ![1]], [.fin (1 / 6), .fin (1 / 3), .fin (1 / 4), .fin (1 / 4)]) := by decide +kernel
  refine ⟨_, _, h', ?_, e⟩
  have hl := (C122_lais (by norm_num) (fun c x => by unfold qx; positivity) (fun x => by unfold tx; positivity) h').1
  rw [e] at hl
  simp at hl ⊢
  omega

end Verif
