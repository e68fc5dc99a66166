import Verif.Proof.TPGreedy
import Verif.Proof.TPValue

/-!
A measure of the work left above a given depth of the tree pyramid, and how the steps of an iteration change it.
-/

set_option linter.unusedSectionVars false
set_option autoImplicit false

namespace Verif

variable {K : Type*} [Field K] [LinearOrder K] [IsStrictOrderedRing K] {d : ℕ}

namespace TPTree

/-- The radius of a node is the radius of the root halved once per level. -/
def Leveled (R : K) (T : TPTree K d) : Prop := ∀ n ∈ T.nodes, n.radius = R / 2 ^ n.level

theorem Leveled.same {R : K} {T T' : TPTree K d} (h : Leveled R T) (s : Same T T') : Leveled R T' := by
  intro n hn
  obtain ⟨i, hi⟩ := List.mem_iff_getElem?.1 hn
  obtain ⟨m, hm, hk⟩ := s.node hi
  have := key_eq hk
  rw [this.2.1, this.2.2.2.2.2.1]
  exact h m (List.mem_iff_getElem?.2 ⟨i, hm⟩)

theorem insertChildren_child {T : TPTree K d} {p : ℕ} (hpN : p < T.nodes.length) {n : TPNode K d} {q : ℕ}
    (hq : T.nodes.length ≤ q) (hq2 : q < T.nodes.length + 2 ^ d) :
    ∃ c, (insertChildren T p n).1.nodes[q]? = some (childAt T n (q - T.nodes.length) c) := by
  have hl := length_childCenters n
  obtain ⟨c, hc⟩ : ∃ c, (childCenters n)[q - T.nodes.length]? = some c :=
    ⟨_, List.getElem?_eq_getElem (by omega)⟩
  refine ⟨c, ?_⟩
  rw [insertChildren_eq]
  simp only
  rw [List.getElem?_set_ne (by omega), List.getElem?_append_right hq, kids_getElem?, hc]
  rfl

theorem insertChildren_length (T : TPTree K d) (p : ℕ) (n : TPNode K d) :
    (insertChildren T p n).1.nodes.length = T.nodes.length + 2 ^ d := by
  rw [insertChildren_eq]; simp [length_kids]

theorem Leveled.insert {R : K} {T : TPTree K d} (I : WF T) (h : Leveled R T) {p : ℕ} {n : TPNode K d}
    (hn : T.nodes[p]? = some n) : Leveled R (insertChildren T p n).1 := by
  intro m hm
  have hpN : p < T.nodes.length := (List.getElem?_eq_some_iff.1 hn).1
  obtain ⟨q, hq⟩ := List.mem_iff_getElem?.1 hm
  have hqN := (List.getElem?_eq_some_iff.1 hq).1
  rw [insertChildren_length] at hqN
  by_cases hqp : q = p
  · subst hqp
    rw [insertChildren_eq] at hq
    simp only at hq
    rw [List.getElem?_set_self (by simp; omega)] at hq
    obtain rfl := Option.some.inj hq
    exact h n (List.mem_iff_getElem?.2 ⟨q, hn⟩)
  · by_cases hlt : q < T.nodes.length
    · rw [(insertChildren_old I hqp hlt).1] at hq
      exact h m (List.mem_iff_getElem?.2 ⟨q, hq⟩)
    · obtain ⟨c, hc⟩ := insertChildren_child (n := n) hpN (not_lt.1 hlt) hqN
      rw [hc] at hq
      obtain rfl := Option.some.inj hq
      simp only [childAt, TPNode.new]
      rw [h n (List.mem_iff_getElem?.2 ⟨p, hn⟩), pow_succ]
      field_simp

/-- Work needed to bring a leaf `j` levels deeper. -/
def need (q m : ℕ) : ℕ → ℕ
  | 0 => 0
  | j + 1 => q * (need q m j + m) + 1

/-- Work left in a node: none at level `L` and deeper. -/
def work (d L m : ℕ) : Option (TPNode K d) → ℕ
  | none => 0
  | some n => if n.level < L then need (2 ^ d) m (L - n.level) + (m - (n.weightHist.getD []).length) else 0

/-- Work left in the leaves. -/
def pot (L m : ℕ) (T : TPTree K d) : ℕ := ∑ p ∈ T.leaves.toFinset, work d L m T.nodes[p]?

theorem work_some (L m : ℕ) (n : TPNode K d) : work d L m (some n)
    = if n.level < L then need (2 ^ d) m (L - n.level) + (m - (n.weightHist.getD []).length) else 0 := rfl

theorem work_le (L m : ℕ) (n : TPNode K d) : work d L m (some n) ≤ need (2 ^ d) m (L - n.level) + m := by
  rw [work_some]
  split_ifs
  · omega
  · omega

theorem pot_insert (L m : ℕ) {T : TPTree K d} (I : WF T) {p : ℕ} {n : TPNode K d} (hn : T.nodes[p]? = some n)
    (hl : n.isLeaf = true) : pot L m (insertChildren T p n).1 + (if n.level < L then 1 else 0) ≤ pot L m T := by
  have hpN : p < T.nodes.length := (List.getElem?_eq_some_iff.1 hn).1
  have hpL : p ∈ T.leaves := by
    obtain ⟨j, _, hj⟩ := I.leafSlot hn hl
    exact List.mem_iff_getElem?.2 ⟨j, hj⟩
  have hset : (insertChildren T p n).1.leaves.toFinset
      = T.leaves.toFinset.erase p ∪ Finset.Ico T.nodes.length (T.nodes.length + 2 ^ d) := by
    ext q
    simp only [List.mem_toFinset, Finset.mem_union, Finset.mem_erase, Finset.mem_Ico]
    rw [insertChildren_leaves I hn hl]
    tauto
  have hdis : Disjoint (T.leaves.toFinset.erase p) (Finset.Ico T.nodes.length (T.nodes.length + 2 ^ d)) := by
    rw [Finset.disjoint_left]
    intro q h1 h2
    have h3 := I.leaf_lt (List.mem_toFinset.1 (Finset.mem_of_mem_erase h1))
    have h4 := (Finset.mem_Ico.1 h2).1
    omega
  unfold pot
  rw [hset, Finset.sum_union hdis]
  have h1 : ∑ q ∈ T.leaves.toFinset.erase p, work d L m (insertChildren T p n).1.nodes[q]?
      = ∑ q ∈ T.leaves.toFinset.erase p, work d L m T.nodes[q]? := by
    apply Finset.sum_congr rfl
    intro q hq
    have h3 := I.leaf_lt (List.mem_toFinset.1 (Finset.mem_of_mem_erase hq))
    rw [(insertChildren_old I (Finset.ne_of_mem_erase hq) h3).1]
  have h2 : ∑ q ∈ Finset.Ico T.nodes.length (T.nodes.length + 2 ^ d), work d L m (insertChildren T p n).1.nodes[q]?
      + (if n.level < L then 1 else 0) ≤ work d L m T.nodes[p]? := by
    have hch : ∀ q ∈ Finset.Ico T.nodes.length (T.nodes.length + 2 ^ d),
        work d L m (insertChildren T p n).1.nodes[q]? ≤
          if n.level + 1 < L then need (2 ^ d) m (L - (n.level + 1)) + m else 0 := by
      intro q hq
      obtain ⟨a, b⟩ := Finset.mem_Ico.1 hq
      obtain ⟨c, hc⟩ := insertChildren_child (n := n) hpN a b
      rw [hc]
      unfold work childAt TPNode.new
      simp only
      split_ifs <;> omega
    have hs := Finset.sum_le_card_nsmul _ _ _ hch
    rw [Nat.card_Ico, Nat.add_sub_cancel_left, smul_eq_mul] at hs
    rw [hn, work_some]
    split_ifs at hs ⊢ with a b
    · have e : L - n.level = (L - (n.level + 1)) + 1 := by omega
      rw [e, need]
      omega
    · have e : L - n.level = (L - (n.level + 1)) + 1 := by omega
      rw [e, need]
      omega
    · omega
    · omega
  have h3 := Finset.sum_erase_add T.leaves.toFinset (fun q => work d L m T.nodes[q]?) (List.mem_toFinset.2 hpL)
  rw [h1]
  omega

theorem expandNodes_old {ess : Option K} {nMin maxParts : ℕ} {c : Pt K d} {R : K} : ∀ (ps : List ℕ)
    (T T' : TPTree K d) (e : ℕ) (acc out : List ℕ), Reached c R T e → expandNodes ess nMin maxParts T ps acc = .ok (T', out) →
    ∀ q < T.nodes.length, q ∉ ps → T'.nodes[q]? = T.nodes[q]?
  | [], T, T', e, acc, out, _, h, q, _, _ => by
    simp only [expandNodes, Except.ok.injEq, Prod.mk.injEq] at h
    rw [h.1]
  | p :: ps, T, T', e, acc, out, r, h, q, hq, hqp => by
    simp only [List.mem_cons, not_or] at hqp
    simp only [expandNodes] at h
    cases hx : T.expand p ess nMin with
    | error => simp [hx] at h
    | ok o =>
      obtain ⟨T1, o⟩ := o
      rw [hx] at h
      rcases expand_cases hx with ⟨rfl, rfl, _⟩ | ⟨n, hn, hlf, _, rfl, rfl⟩
      · exact expandNodes_old ps T1 T' e _ out r h q hq hqp.2
      · simp only at h
        have h1 := (insertChildren_old r.wf (n := n) hqp.1 hq).1
        split_ifs at h with hc
        · simp only [Except.ok.injEq, Prod.mk.injEq] at h
          rw [← h.1, h1]
        · rw [expandNodes_old ps _ T' (e + 1) _ out (r.insert hn hlf) h q (by rw [insertChildren_length]; exact Nat.lt_add_right _ hq) hqp.2, h1]

theorem expandNodes_acc {ess : Option K} {nMin maxParts : ℕ} : ∀ (ps : List ℕ)
    (T T' : TPTree K d) (acc out : List ℕ), expandNodes ess nMin maxParts T ps acc = .ok (T', out) → ∀ q ∈ acc, q ∈ out
  | [], T, T', acc, out, h, q, hq => by
    simp only [expandNodes, Except.ok.injEq, Prod.mk.injEq] at h
    rw [← h.2]; exact hq
  | p :: ps, T, T', acc, out, h, q, hq => by
    simp only [expandNodes] at h
    cases hx : T.expand p ess nMin with
    | error => simp [hx] at h
    | ok o =>
      obtain ⟨T1, o⟩ := o
      rw [hx] at h
      cases o with
      | none => exact expandNodes_acc ps T1 T' _ out h q (by simp [hq])
      | some refs =>
        simp only at h
        split_ifs at h with hc
        · simp only [Except.ok.injEq, Prod.mk.injEq] at h
          rw [← h.2]; simp [hq]
        · exact expandNodes_acc ps T1 T' _ out h q (by simp [hq])

/-- Expanding a list of leaves: a prefix of them is considered; the work left does not grow; if a leaf above level `L` is
considered, it was split and the work left got smaller, or it is a candidate for more samples. -/
theorem expandNodes_pot (L m : ℕ) {ess : Option K} {nMin maxParts : ℕ} {c : Pt K d} {R : K} : ∀ (ps : List ℕ)
    (T T' : TPTree K d) (e : ℕ) (acc out : List ℕ), Reached c R T e → Leveled R T →
    expandNodes ess nMin maxParts T ps acc = .ok (T', out) → ps.Nodup → (∀ p ∈ ps, p ∈ T.leaves) →
    Leveled R T' ∧ T.leaves.length ≤ T'.leaves.length ∧ T'.leaves.length ≤ T.leaves.length + 2 ^ d * ps.length ∧
    ∃ done rest, ps = done ++ rest ∧ (ps ≠ [] → done ≠ []) ∧ pot L m T' ≤ pot L m T ∧
      ∀ p ∈ done, ∀ n, T.nodes[p]? = some n → n.level < L → pot L m T' < pot L m T ∨
        (shouldExpand n ess nMin = .ok false ∧ p ∈ out ∧ T'.nodes[p]? = some n)
  | [], T, T', e, acc, out, r, hlev, h, hnd, hl => by
    simp only [expandNodes, Except.ok.injEq, Prod.mk.injEq] at h
    obtain ⟨rfl, rfl⟩ := h
    exact ⟨hlev, le_rfl, by simp, [], [], rfl, by simp, le_rfl, by simp⟩
  | p :: ps, T, T', e, acc, out, r, hlev, h, hnd, hl => by
    simp only [expandNodes] at h
    rw [List.nodup_cons] at hnd
    have I := r.wf
    cases hx : T.expand p ess nMin with
    | error => simp [hx] at h
    | ok o =>
      obtain ⟨T1, o⟩ := o
      rw [hx] at h
      rcases expand_cases hx with ⟨rfl, rfl, k, hk, _, hno⟩ | ⟨n, hn, hlf, hse, rfl, rfl⟩
      · simp only at h
        have hpN : p < T1.nodes.length := (List.getElem?_eq_some_iff.1 hk).1
        obtain ⟨g1, g2, g3, done, rest, e1, e2, e3, e4⟩ := expandNodes_pot L m ps T1 T' e (acc ++ [p]) out r hlev h
          hnd.2 (fun q hq => hl q (by simp [hq]))
        refine ⟨g1, g2, ?_, p :: done, rest, by simp [e1], by simp, e3, ?_⟩
        · simp only [List.length_cons]
          nlinarith [Nat.zero_le (2 ^ d)]
        · intro q hq n hn hlt
          rcases List.mem_cons.1 hq with rfl | hq
          · rw [hk] at hn
            obtain rfl := Option.some.inj hn
            refine Or.inr ⟨hno, expandNodes_acc ps T1 T' _ out h q (by simp), ?_⟩
            rw [expandNodes_old ps T1 T' e _ out r h q hpN hnd.1, hk]
          · exact e4 q hq n hn hlt
      · simp only at h
        have hpN : p < T.nodes.length := (List.getElem?_eq_some_iff.1 hn).1
        have hpot := pot_insert L m I hn hlf
        have r1 := r.insert hn hlf
        have hlev1 := hlev.insert I hn
        have hlen : (insertChildren T p n).1.leaves.length + 1 = T.leaves.length + 2 ^ d := by
          have a := r.nLeaves
          have b := r1.nLeaves
          have hpow : 1 ≤ 2 ^ d := Nat.one_le_two_pow
          rw [a, b, add_one_mul]
          omega
        have hpow : 1 ≤ 2 ^ d := Nat.one_le_two_pow
        split_ifs at h with hc
        · simp only [Except.ok.injEq, Prod.mk.injEq] at h
          obtain ⟨rfl, rfl⟩ := h
          refine ⟨hlev1, by omega, ?_, [p], ps, rfl, by simp, by omega, ?_⟩
          · simp only [List.length_cons]
            nlinarith
          · intro q hq k hk hlt
            rw [List.mem_singleton] at hq
            subst hq
            rw [hn] at hk
            obtain rfl := Option.some.inj hk
            rw [if_pos hlt] at hpot
            left; omega
        · have hl1 : ∀ q ∈ ps, q ∈ (insertChildren T p n).1.leaves := fun q hq =>
            (insertChildren_leaves I hn hlf q).2 (Or.inl ⟨hl q (by simp [hq]), fun h => hnd.1 (h ▸ hq)⟩)
          obtain ⟨g1, g2, g3, done, rest, e1, e2, e3, e4⟩ := expandNodes_pot L m ps _ T' (e + 1) _ out r1 hlev1 h hnd.2 hl1
          refine ⟨g1, by omega, ?_, p :: done, rest, by simp [e1], by simp, by omega, ?_⟩
          · simp only [List.length_cons]
            nlinarith
          · intro q hq k hk hlt
            rcases List.mem_cons.1 hq with rfl | hq
            · rw [hn] at hk
              obtain rfl := Option.some.inj hk
              rw [if_pos hlt] at hpot
              left; omega
            · have hqp : q ≠ p := fun h0 => hnd.1 (by rw [← h0, e1]; simp [hq])
              have hqN : q < T.nodes.length := (List.getElem?_eq_some_iff.1 hk).1
              have hk1 : (insertChildren T p n).1.nodes[q]? = some k := by rw [(insertChildren_old I hqp hqN).1, hk]
              rcases e4 q hq k hk1 hlt with h5 | h5
              · left; omega
              · exact Or.inr h5

end TPTree

namespace TPSampler

open TPTree

/-- What a visit does to the tree. -/
theorem visit_full {target : Pt K d → XF K} {draw : ℕ → Pt K d} {S S' : TPSampler K d} (I : WF S.T) {p : ℕ}
    (h : visit target draw S p = .ok S') : ∃ n, S.T.nodes[p]? = some n ∧ Same S.T S'.T ∧
      S'.T.nodes[p]? = some ((n.sample (n.sampler.sample1 (draw p))).weigh target n.sampler.prob1) ∧
      S'.T.samples[p]? = some (n.sampler.sample1 (draw p)) ∧
      S'.T.weights[p]? = some (target (n.sampler.sample1 (draw p)) / n.sampler.prob1 (n.sampler.sample1 (draw p))) ∧
      ∀ q, q ≠ p → S'.T.nodes[q]? = S.T.nodes[q]? ∧ S'.T.samples[q]? = S.T.samples[q]? ∧
        S'.T.weights[q]? = S.T.weights[q]? := by
  unfold visit at h
  split at h
  · cases h
  · rename_i n hn
    have hpN : p < S.T.nodes.length := (List.getElem?_eq_some_iff.1 hn).1
    have hni := I.idx p n hn
    simp only [bind, Except.bind, pure, Except.pure] at h
    cases h1 : S.T.sampleNode p (n.sampler.sample1 (draw p)) with
    | error e => simp [h1] at h
    | ok T1 =>
      rw [h1] at h
      simp only at h
      cases h2 : T1.weighNode p target n.sampler.prob1 with
      | error e => simp [h2] at h
      | ok T2 =>
        rw [h2] at h
        simp only [Except.ok.injEq] at h
        subst h
        refine ⟨n, hn, (sampleNode_same h1).trans (weighNode_same h2), ?_⟩
        unfold sampleNode at h1
        simp only [hn] at h1
        split_ifs at h1 with hc1
        simp only [Except.ok.injEq] at h1
        subst h1
        have hm : (S.T.nodes.modify p fun n' => n'.sample (n.sampler.sample1 (draw p)))[p]?
            = some (n.sample (n.sampler.sample1 (draw p))) := by
          rw [List.getElem?_modify_eq, hn]; rfl
        unfold weighNode at h2
        simp only [hm] at h2
        have hni2 : (n.sample (n.sampler.sample1 (draw p))).nodeIdx = p := hni
        rw [hni2, hni] at h2
        split_ifs at h2 with hc2
        simp only [Except.ok.injEq] at h2
        subst h2
        have hl1 := I.lenS
        have hl2 := I.lenW
        refine ⟨?_, ?_, ?_, ?_⟩
        · simp only
          rw [List.getElem?_modify_eq, hm]; rfl
        · simp only
          exact List.getElem?_set_self (by omega)
        · simp only
          rw [List.getElem?_set_self (by omega)]
          rfl
        · intro q hq
          have hq' : p ≠ q := fun h => hq h.symm
          simp only
          rw [getElem?_modify_ne' _ _ hq', getElem?_modify_ne' _ _ hq', List.getElem?_set_ne hq', List.getElem?_set_ne hq']
          exact ⟨rfl, rfl, rfl⟩

theorem visit_pot (L m : ℕ) {target : Pt K d → XF K} {draw : ℕ → Pt K d} {S S' : TPSampler K d} (I : WF S.T) {p : ℕ}
    (hp : p ∈ S.T.leaves) (h : visit target draw S p = .ok S') : pot L m S'.T ≤ pot L m S.T ∧
      ∀ n, S.T.nodes[p]? = some n → n.level < L → (n.weightHist.getD []).length < m → pot L m S'.T < pot L m S.T := by
  obtain ⟨n, hn, hs, h1, _, _, h4⟩ := visit_full I h
  have hoth : ∀ q ∈ S.T.leaves.toFinset, q ≠ p → work d L m S'.T.nodes[q]? = work d L m S.T.nodes[q]? := by
    intro q _ hq
    rw [(h4 q hq).1]
  have hself : work d L m S'.T.nodes[p]? ≤ work d L m S.T.nodes[p]? ∧ (n.level < L →
      (n.weightHist.getD []).length < m → work d L m S'.T.nodes[p]? < work d L m S.T.nodes[p]?) := by
    rw [h1, hn]
    unfold work TPNode.weigh TPNode.sample
    simp only [Option.getD_some, List.length_append, List.length_singleton]
    constructor
    · split_ifs <;> omega
    · intro a b
      rw [if_pos a, if_pos a]
      omega
  unfold pot
  rw [hs.leaves]
  constructor
  · apply Finset.sum_le_sum
    intro q hq
    by_cases hqp : q = p
    · subst hqp; exact hself.1
    · exact (hoth q hq hqp).le
  · intro k hk a b
    rw [hn] at hk
    obtain rfl := Option.some.inj hk
    apply Finset.sum_lt_sum
    · intro q hq
      by_cases hqp : q = p
      · subst hqp; exact hself.1
      · exact (hoth q hq hqp).le
    · exact ⟨p, List.mem_toFinset.2 hp, hself.2 a b⟩

theorem visits_pot (L m : ℕ) {target : Pt K d → XF K} {draw : ℕ → Pt K d} : ∀ (ps : List ℕ) (S S' : TPSampler K d),
    WF S.T → (∀ p ∈ ps, p ∈ S.T.leaves) → ps.foldlM (visit target draw) S = .ok S' → pot L m S'.T ≤ pot L m S.T ∧
    ((∃ p ∈ ps, ∃ n, S.T.nodes[p]? = some n ∧ n.level < L ∧ (n.weightHist.getD []).length < m) →
      pot L m S'.T < pot L m S.T)
  | [], S, S', I, hl, h => by
    simp only [List.foldlM_nil, pure, Except.pure, Except.ok.injEq] at h
    subst h
    exact ⟨le_rfl, by simp⟩
  | p :: ps, S, S', I, hl, h => by
    simp only [List.foldlM_cons, bind, Except.bind] at h
    cases h1 : visit target draw S p with
    | error e => simp [h1] at h
    | ok S1 =>
      rw [h1] at h
      simp only at h
      obtain ⟨n, hn, hs, _, _, _, h4⟩ := visit_full I h1
      obtain ⟨a1, a2⟩ := visit_pot L m I (hl p (by simp)) h1
      obtain ⟨b1, b2⟩ := visits_pot L m ps S1 S' (hs.inv I) (fun q hq => by rw [hs.leaves]; exact hl q (by simp [hq])) h
      refine ⟨by omega, ?_⟩
      rintro ⟨q, hq, k, hk, hk1, hk2⟩
      by_cases hqp : q = p
      · subst hqp
        have := a2 k hk hk1 hk2
        omega
      · rcases List.mem_cons.1 hq with h5 | h5
        · exact absurd h5 hqp
        · have := b2 ⟨q, h5, k, by rw [(h4 q hqp).1, hk], hk1, hk2⟩
          omega

end TPSampler
end Verif
