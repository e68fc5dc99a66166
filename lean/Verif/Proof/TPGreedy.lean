import Verif.Proof.TPSampler
import Verif.Spec.TPGreedy

/-!
Refinement order of the tree pyramid: stored values, sorting, and the candidates that get split.
-/

set_option linter.unusedSectionVars false
set_option autoImplicit false

namespace Verif

variable {K : Type*} [Field K] [LinearOrder K] [IsStrictOrderedRing K] {d : ℕ}

/-! ### Extended numbers -/

theorem XF.ltb_irrefl (a : XF K) : XF.ltb a a = false := by
  cases a <;> simp [XF.ltb]

theorem XF.ltb_total (a b : XF K) : XF.ltb a b = false ∨ XF.ltb b a = false := by
  cases a <;> cases b <;> simp [XF.ltb]
  exact le_total _ _

theorem XF.not_ltb_trans {a b c : XF K} (hb : b ≠ XF.nan) (h1 : XF.ltb a b = false) (h2 : XF.ltb b c = false) :
    XF.ltb a c = false := by
  cases a <;> cases b <;> cases c <;> simp_all [XF.ltb]
  exact h2.trans h1

theorem XF.mul_fin_mul (a : XF K) (x : K) {k : K} (hk : 0 < k) : a * XF.fin (k * x) = a * XF.fin x * XF.fin k := by
  cases a with
  | fin a => simp; ring
  | nan => simp
  | pinf =>
    show XF.infMul (k * x) = XF.infMul x * XF.fin k
    unfold XF.infMul
    rcases lt_trichotomy x 0 with h | h | h
    · have : k * x < 0 := mul_neg_of_pos_of_neg hk h
      rw [if_neg (not_lt.2 this.le), if_pos this, if_neg (not_lt.2 h.le), if_pos h]
      show XF.ninf = XF.neg (XF.infMul k)
      simp [XF.infMul, hk, XF.neg]
    · subst h; simp
    · rw [if_pos (mul_pos hk h), if_pos h]
      show XF.pinf = XF.infMul k
      simp [XF.infMul, hk]
  | ninf =>
    show XF.neg (XF.infMul (k * x)) = XF.neg (XF.infMul x) * XF.fin k
    unfold XF.infMul
    rcases lt_trichotomy x 0 with h | h | h
    · have : k * x < 0 := mul_neg_of_pos_of_neg hk h
      rw [if_neg (not_lt.2 this.le), if_pos this, if_neg (not_lt.2 h.le), if_pos h]
      show XF.pinf = XF.infMul k
      simp [XF.infMul, hk]
    · subst h; simp [XF.neg]
    · rw [if_pos (mul_pos hk h), if_pos h]
      show XF.ninf = XF.neg (XF.infMul k)
      simp [XF.infMul, hk, XF.neg]

theorem XF.ltb_mul_fin (a b : XF K) {k : K} (hk : 0 < k) : XF.ltb (a * XF.fin k) (b * XF.fin k) = XF.ltb a b := by
  have e1 : (XF.pinf : XF K) * XF.fin k = XF.pinf := by
    show XF.infMul k = _
    simp [XF.infMul, hk]
  have e2 : (XF.ninf : XF K) * XF.fin k = XF.ninf := by
    show XF.neg (XF.infMul k) = _
    simp [XF.infMul, hk, XF.neg]
  cases a <;> cases b <;> simp [e1, e2, XF.ltb, hk]

theorem XF.mul_fin_nan {a : XF K} {k : K} (hk : 0 < k) : a * XF.fin k = XF.nan ↔ a = XF.nan := by
  have e1 : (XF.pinf : XF K) * XF.fin k = XF.pinf := by
    show XF.infMul k = _
    simp [XF.infMul, hk]
  have e2 : (XF.ninf : XF K) * XF.fin k = XF.ninf := by
    show XF.neg (XF.infMul k) = _
    simp [XF.infMul, hk, XF.neg]
  cases a <;> simp [e1, e2]

/-! ### Insertion sort with a relation that is an order only on the list -/

theorem pairwise_orderedInsert_on {α : Type*} (r : α → α → Prop) [DecidableRel r] (a : α) :
    ∀ (l : List α), (∀ b ∈ l, r a b ∨ r b a) → (∀ b ∈ l, ∀ c ∈ l, r a b → r b c → r a c) → l.Pairwise r →
    (l.orderedInsert r a).Pairwise r
  | [], _, _, _ => by simp
  | b :: l, ht, htr, hp => by
    rw [List.pairwise_cons] at hp
    rw [List.orderedInsert_cons]
    split_ifs with h
    · rw [List.pairwise_cons, List.pairwise_cons]
      refine ⟨?_, hp⟩
      intro c hc
      rcases List.mem_cons.1 hc with rfl | hc
      · exact h
      · exact htr b (by simp) c (by simp [hc]) h (hp.1 c hc)
    · rw [List.pairwise_cons]
      refine ⟨?_, pairwise_orderedInsert_on r a l (fun c hc => ht c (by simp [hc]))
        (fun c hc e he => htr c (by simp [hc]) e (by simp [he])) hp.2⟩
      intro c hc
      rw [List.mem_orderedInsert] at hc
      rcases hc with rfl | hc
      · exact (ht b (by simp)).resolve_left h
      · exact hp.1 c hc

theorem pairwise_insertionSort_on {α : Type*} (r : α → α → Prop) [DecidableRel r] :
    ∀ (l : List α), (∀ a ∈ l, ∀ b ∈ l, r a b ∨ r b a) → (∀ a ∈ l, ∀ b ∈ l, ∀ c ∈ l, r a b → r b c → r a c) →
    (l.insertionSort r).Pairwise r
  | [], _, _ => by simp
  | a :: l, ht, htr => by
    rw [List.insertionSort_cons]
    have hm : ∀ b, b ∈ l.insertionSort r → b ∈ l := fun b hb => (List.perm_insertionSort r l).mem_iff.1 hb
    apply pairwise_orderedInsert_on
    · intro b hb
      exact ht a (by simp) b (by simp [hm b hb])
    · intro b hb c hc
      exact htr a (by simp) b (by simp [hm b hb]) c (by simp [hm c hc])
    · exact pairwise_insertionSort_on r l (fun b hb c hc => ht b (by simp [hb]) c (by simp [hc]))
        (fun b hb c hc e he => htr b (by simp [hb]) c (by simp [hc]) e (by simp [he]))

namespace TPTree

/-- The value stored in the node object `p`. -/
def valueAt (T : TPTree K d) (p : ℕ) : XF K := match T.nodes[p]? with
  | some n => n.value
  | none => XF.nan

theorem sortedLeaves_pairwise (T : TPTree K d) (h : ∀ p ∈ T.leaves, T.valueAt p ≠ XF.nan) :
    (TPSampler.sortedLeaves T).Pairwise fun a b => XF.ltb (T.valueAt a) (T.valueAt b) = false := by
  unfold TPSampler.sortedLeaves
  apply pairwise_insertionSort_on
  · intro a _ b _
    exact XF.ltb_total _ _
  · intro a _ b hb c _ h1 h2
    exact XF.not_ltb_trans (h b hb) h1 h2

/-! ### Which candidates are split -/

theorem expandNodes_prefix {c : Pt K d} {R : K} (ess : Option K) (nMin maxParts : ℕ) :
    ∀ (ps : List ℕ) (T T' : TPTree K d) (e : ℕ) (acc out : List ℕ), Reached c R T e →
      expandNodes ess nMin maxParts T ps acc = .ok (T', out) → ps.Nodup → (∀ p ∈ ps, p ∈ T.leaves) →
      ∃ done rest, ps = done ++ rest ∧
        (∀ q < T.nodes.length, q ∉ T'.leaves ↔
          q ∉ T.leaves ∨ q ∈ done ∧ ∃ n, T.nodes[q]? = some n ∧ shouldExpand n ess nMin = .ok true) ∧
        (rest ≠ [] → ∃ p ∈ done, p ∉ T'.leaves)
  | [], T, T', e, acc, out, r, h, hnd, hl => by
    simp only [expandNodes, Except.ok.injEq, Prod.mk.injEq] at h
    obtain ⟨rfl, rfl⟩ := h
    exact ⟨[], [], rfl, fun q hq => by simp, by simp⟩
  | p :: ps, T, T', e, acc, out, r, h, hnd, hl => by
    simp only [expandNodes] at h
    rw [List.nodup_cons] at hnd
    have I := r.wf
    cases hx : T.expand p ess nMin with
    | error => simp [hx] at h
    | ok o =>
      obtain ⟨T1, o⟩ := o
      rw [hx] at h
      rcases expand_cases hx with ⟨rfl, rfl, m, hm, _, hno⟩ | ⟨n, hn, hlf, hse, rfl, rfl⟩
      · simp only at h
        obtain ⟨done, rest, e1, e2, e3⟩ := expandNodes_prefix ess nMin maxParts ps T1 T' e (acc ++ [p]) out r h
          hnd.2 (fun q hq => hl q (by simp [hq]))
        refine ⟨p :: done, rest, by simp [e1], ?_, fun hr => ?_⟩
        · intro q hq
          rw [e2 q hq]
          refine or_congr Iff.rfl ?_
          constructor
          · rintro ⟨a, b⟩; exact ⟨by simp [a], b⟩
          · rintro ⟨a, b⟩
            rcases List.mem_cons.1 a with rfl | a
            · obtain ⟨k, hk, hk'⟩ := b
              rw [hm] at hk
              obtain rfl : m = k := by simpa using hk
              rw [hno] at hk'; cases hk'
            · exact ⟨a, b⟩
        · obtain ⟨q, h1, h2⟩ := e3 hr
          exact ⟨q, by simp [h1], h2⟩
      · simp only at h
        have hpN : p < T.nodes.length := (List.getElem?_eq_some_iff.1 hn).1
        have hpL : p ∈ T.leaves := hl p (by simp)
        have hnew : ∀ q < T.nodes.length, (q ∉ (insertChildren T p n).1.leaves ↔ q ∉ T.leaves ∨ q = p) := by
          intro q hq
          rw [insertChildren_leaves I hn hlf]
          constructor
          · intro h1
            by_contra h2
            push Not at h2
            exact h1 (Or.inl h2)
          · rintro h1 (h2 | h2)
            · rcases h1 with h1 | h1
              · exact h1 h2.1
              · exact h2.2 h1
            · omega
        split_ifs at h with hc
        · simp only [Except.ok.injEq, Prod.mk.injEq] at h
          obtain ⟨rfl, rfl⟩ := h
          refine ⟨[p], ps, rfl, ?_, fun _ => ⟨p, by simp, (hnew p hpN).2 (Or.inr rfl)⟩⟩
          intro q hq
          rw [hnew q hq]
          refine or_congr Iff.rfl ?_
          constructor
          · rintro rfl
            exact ⟨by simp, n, hn, hse⟩
          · rintro ⟨a, _⟩
            simpa using a
        · have r1 := r.insert hn hlf
          have hl1 : ∀ q ∈ ps, q ∈ (insertChildren T p n).1.leaves := fun q hq =>
            (insertChildren_leaves I hn hlf q).2 (Or.inl ⟨hl q (by simp [hq]), fun h => hnd.1 (h ▸ hq)⟩)
          obtain ⟨done, rest, e1, e2, e3⟩ := expandNodes_prefix ess nMin maxParts ps _ T' (e + 1) _ out r1 h hnd.2 hl1
          have hlen : T.nodes.length ≤ (insertChildren T p n).1.nodes.length := by
            rw [insertChildren_eq]; simp
          have hall : ∀ q < T.nodes.length, q ∉ T'.leaves ↔
              q ∉ T.leaves ∨ q ∈ p :: done ∧ ∃ n, T.nodes[q]? = some n ∧ shouldExpand n ess nMin = .ok true := by
            intro q hq
            rw [e2 q (by omega), hnew q hq]
            by_cases hqp : q = p
            · subst hqp
              simp only [or_true, true_or, List.mem_cons, true_and, true_iff]
              exact Or.inr ⟨n, hn, hse⟩
            · rw [(insertChildren_old I hqp hq).1]
              simp [hqp]
          refine ⟨p :: done, rest, by simp [e1], hall, fun _ => ⟨p, by simp, ?_⟩⟩
          rw [hall p hpN]
          exact Or.inr ⟨by simp, n, hn, hse⟩

end TPTree
end Verif
