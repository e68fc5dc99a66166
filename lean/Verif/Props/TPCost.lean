import Verif.Proof.Cost
import Verif.Proof.TPMixture
import Verif.Proof.TPSampler
import Verif.Spec.TPCalls
import Mathlib.Data.Fin.VecNotation

/-!
# C139: no sampler looks at the target more often than it reports

The tree pyramid. The sample of the root is weighed without being counted (scheme "simple").
-/

set_option linter.unusedSectionVars false
set_option autoImplicit false

namespace Verif

variable {K : Type*} [Field K] [LinearOrder K] [IsStrictOrderedRing K] {d : ℕ}

namespace TPTree

theorem weigh_congr {n : TPNode K d} {p p' q : Pt K d → XF K} (h : p' n.coords = p n.coords) :
    n.weigh p' q = n.weigh p q := by
  unfold TPNode.weigh
  rw [h]

theorem weighNode_congr {T : TPTree K d} {i : ℕ} {p p' q : Pt K d → XF K}
    (h : ∀ x ∈ ((T.nodes[i]?).map TPNode.coords).toList, p' x = p x) : T.weighNode i p' q = T.weighNode i p q := by
  unfold weighNode
  cases hn : T.nodes[i]? with
  | none => rfl
  | some n =>
    have e : n.weigh p' q = n.weigh p q := weigh_congr (h n.coords (by simp [hn]))
    have e2 : T.nodes.modify i (fun n => n.weigh p' q) = T.nodes.modify i fun n => n.weigh p q := by
      apply List.ext_getElem?
      intro j
      rw [List.getElem?_modify, List.getElem?_modify]
      by_cases hj : i = j
      · subst hj
        simp [hn, e]
      · simp [hj]
    simp only [e, e2]

theorem mem_maskSelect {α : Type*} : ∀ (m : List Bool) (l : List α) (x : α), (x, true) ∈ l.zip m → x ∈ maskSelect m l
  | [], l, x, h => by simp at h
  | b :: m, [], x, h => by simp at h
  | b :: m, a :: l, x, h => by
    simp only [List.zip_cons_cons, List.mem_cons, Prod.mk.injEq] at h
    cases b with
    | true =>
      rcases h with ⟨rfl, _⟩ | h
      · simp [maskSelect]
      · simp [maskSelect, mem_maskSelect m l x h]
    | false =>
      rcases h with ⟨_, h⟩ | h
      · cases h
      · simp [maskSelect, mem_maskSelect m l x h]

theorem WF.length_mask {T : TPTree K d} (I : WF T) {α : Type*} [Inhabited α] (l : List α)
    (hl : l.length = T.nodes.length) : (maskSelect T.leavesIdx l).length = T.leaves.length := by
  have := (I.maskSelect_perm l hl (fun p => l[p]!) (by
    intro p hp
    have hlt : p < l.length := by rw [hl]; exact I.leaf_lt hp
    rw [List.getElem?_eq_getElem hlt]
    simp [hlt])).length_eq
  simpa using this

/-- The points at which the resampling step looks. -/
def rePoints (T : TPTree K d) (u : ℕ → Pt K d) : List (Pt K d) :=
  maskSelect T.leavesIdx ((T.centers.zip T.radii).zipIdx.map fun ((c, r), i) => reSample (u i) c r)

theorem length_rePoints {T : TPTree K d} (I : WF T) (u : ℕ → Pt K d) : (T.rePoints u).length = T.leaves.length := by
  haveI : Inhabited (Pt K d) := ⟨fun _ => 0⟩
  apply I.length_mask
  rw [List.length_map, List.length_zipIdx, List.length_zip, I.centers, I.radii]
  simp

theorem resample_congr {T : TPTree K d} {u : ℕ → Pt K d} {p p' : Pt K d → XF K} (h : ∀ x ∈ T.rePoints u, p' x = p x) :
    T.resample p' u = T.resample p u := by
  have e : resampleArrays T p' u = resampleArrays T p u := by
    unfold resampleArrays
    simp only
    congr 1
    refine List.map_congr_left ?_
    rintro ⟨⟨w, x⟩, b⟩ hm
    cases b with
    | false => rfl
    | true =>
      simp only [if_true]
      rw [h x.1]
      unfold rePoints
      apply mem_maskSelect
      obtain ⟨i, hi⟩ := List.mem_iff_getElem?.1 hm
      rw [List.getElem?_zip_eq_some] at hi
      obtain ⟨h1, h2⟩ := hi
      rw [List.getElem?_zip_eq_some] at h1
      refine List.mem_iff_getElem?.2 ⟨i, List.getElem?_zip_eq_some.2 ⟨?_, h2⟩⟩
      have h3 := h1.2
      rw [List.getElem?_map] at h3 ⊢
      cases hz : ((T.centers.zip T.radii).zipIdx)[i]? with
      | none => rw [hz] at h3; simp at h3
      | some a =>
        obtain ⟨⟨c, r⟩, k⟩ := a
        rw [hz] at h3
        simp only [Option.map_some, Option.some.injEq] at h3 ⊢
        rw [← h3]
  unfold resample
  rw [e]

/-- The root has a sample, or it was split. -/
def Settled (T : TPTree K d) : Prop := ∃ n, T.nodes[0]? = some n ∧ (n.histDeleted = true ∨ n.weightHist ≠ none)

theorem sampleNode_settled {T T' : TPTree K d} {p : ℕ} {x : Pt K d} (h : T.sampleNode p x = .ok T') (hs : Settled T) :
    Settled T' := by
  obtain ⟨n, hn, h0⟩ := hs
  unfold sampleNode at h
  split at h
  · cases h
  split_ifs at h
  simp only [Except.ok.injEq] at h
  subst h
  refine ⟨if p = 0 then n.sample x else n, ?_, ?_⟩
  · simp only
    rw [List.getElem?_modify, hn]
    split_ifs <;> rfl
  · split_ifs
    · exact h0
    · exact h0

theorem weighNode_settled {T T' : TPTree K d} {p : ℕ} {t q : Pt K d → XF K} (h : T.weighNode p t q = .ok T')
    (hs : Settled T ∨ p = 0) : Settled T' := by
  unfold weighNode at h
  split at h
  · cases h
  rename_i m hm
  split_ifs at h
  simp only [Except.ok.injEq] at h
  subst h
  by_cases hp : p = 0
  · subst hp
    refine ⟨m.weigh t q, ?_, Or.inr (by simp [TPNode.weigh])⟩
    simp only
    rw [List.getElem?_modify, hm]
    simp
  · obtain ⟨n, hn, h0⟩ := hs.resolve_right hp
    refine ⟨n, ?_, h0⟩
    simp only
    rw [List.getElem?_modify, hn]
    simp [hp]

theorem selfNormalize_nodes (T : TPTree K d) : T.selfNormalize.nodes = T.nodes := by
  unfold selfNormalize
  simp only
  split_ifs <;> rfl

theorem refreshLeaf_settled {T T' : TPTree K d} {p : ℕ} (h : T.refreshLeaf p = .ok T') (hs : Settled T) : Settled T' := by
  obtain ⟨n, hn, h0⟩ := hs
  unfold refreshLeaf at h
  split at h
  · cases h
  rename_i m hm
  split at h
  · split at h
    · simp only [Except.ok.injEq] at h
      subst h
      by_cases hp : p = 0
      · subst hp
        refine ⟨_, List.getElem?_set_self (List.getElem?_eq_some_iff.1 hm).1, Or.inr (by simp)⟩
      · exact ⟨n, by simp only; rw [List.getElem?_set_ne hp, hn], h0⟩
    · cases h
  · cases h

theorem foldlM_settled : ∀ (l : List ℕ) {T T' : TPTree K d}, l.foldlM refreshLeaf T = .ok T' → Settled T → Settled T'
  | [], T, T', h, hs => by
    simp only [List.foldlM_nil, pure, Except.pure, Except.ok.injEq] at h
    rw [← h]; exact hs
  | p :: l, T, T', h, hs => by
    simp only [List.foldlM_cons, bind, Except.bind] at h
    cases h1 : T.refreshLeaf p with
    | error => simp [h1] at h
    | ok T1 =>
      rw [h1] at h
      exact foldlM_settled l h (refreshLeaf_settled h1 hs)

theorem resample_settled {T T' : TPTree K d} {t : Pt K d → XF K} {u : ℕ → Pt K d} (h : T.resample t u = .ok T')
    (hs : Settled T) : Settled T' := by
  refine foldlM_settled _ h ?_
  obtain ⟨n, hn, h0⟩ := hs
  exact ⟨n, by rw [selfNormalize_nodes]; exact hn, h0⟩

theorem expandNodes_reached {c : Pt K d} {R : K} {ess : Option K} {nMin maxParts : ℕ} : ∀ (ps : List ℕ)
    {T T' : TPTree K d} {e : ℕ} {acc out : List ℕ}, Reached c R T e →
    expandNodes ess nMin maxParts T ps acc = .ok (T', out) → ∃ e', Reached c R T' e'
  | [], T, T', e, acc, out, r, h => by
    simp only [expandNodes, Except.ok.injEq, Prod.mk.injEq] at h
    rw [← h.1]; exact ⟨e, r⟩
  | p :: ps, T, T', e, acc, out, r, h => by
    simp only [expandNodes] at h
    cases hx : T.expand p ess nMin with
    | error => simp [hx] at h
    | ok o =>
      obtain ⟨T1, o⟩ := o
      have r1 := r.expand hx
      rw [hx] at h
      cases o with
      | none =>
        simp only at h
        exact expandNodes_reached ps r1 h
      | some refs =>
        simp only at h
        split_ifs at h
        · simp only [Except.ok.injEq, Prod.mk.injEq] at h
          rw [← h.1]; exact ⟨_, r1⟩
        · exact expandNodes_reached ps r1 h

theorem expand_settled {T T' : TPTree K d} {p : ℕ} {ess : Option K} {nMin : ℕ} {o : Option (List ℕ)}
    (h : T.expand p ess nMin = .ok (T', o)) (hs : Settled T) : Settled T' := by
  rcases expand_cases h with ⟨rfl, rfl, _⟩ | ⟨n, hn, hl, _, rfl, rfl⟩
  · exact hs
  · obtain ⟨m, hm, h0⟩ := hs
    have hl0 : 0 < T.nodes.length := (List.getElem?_eq_some_iff.1 hm).1
    rw [insertChildren_eq]
    unfold Settled
    simp only
    by_cases hp : p = 0
    · subst hp
      refine ⟨_, List.getElem?_set_self (by simp; omega), Or.inl rfl⟩
    · exact ⟨m, by rw [List.getElem?_set_ne hp, List.getElem?_append_left hl0, hm], h0⟩

theorem expandNodes_settled {ess : Option K} {nMin maxParts : ℕ} : ∀ (ps : List ℕ)
    {T T' : TPTree K d} {acc out : List ℕ}, Settled T →
    expandNodes ess nMin maxParts T ps acc = .ok (T', out) → Settled T'
  | [], T, T', acc, out, r, h => by
    simp only [expandNodes, Except.ok.injEq, Prod.mk.injEq] at h
    rw [← h.1]; exact r
  | p :: ps, T, T', acc, out, r, h => by
    simp only [expandNodes] at h
    cases hx : T.expand p ess nMin with
    | error => simp [hx] at h
    | ok o =>
      obtain ⟨T1, o⟩ := o
      have r1 := expand_settled hx r
      rw [hx] at h
      cases o with
      | none =>
        simp only at h
        exact expandNodes_settled ps r1 h
      | some refs =>
        simp only at h
        split_ifs at h
        · simp only [Except.ok.injEq, Prod.mk.injEq] at h
          rw [← h.1]; exact r1
        · exact expandNodes_settled ps r1 h

end TPTree

namespace TPSampler
open TPTree

/-- The structure of the tree is intact. -/
def Intact (T : TPTree K d) : Prop := ∃ (c : Pt K d) (R : K) (e : ℕ), Reached c R T e

theorem Intact.wf {T : TPTree K d} (h : Intact T) : WF T := by
  obtain ⟨_, _, _, r⟩ := h
  exact r.wf

theorem Intact.same {T T' : TPTree K d} (h : Intact T) (hs : Same T T') : Intact T' := by
  obtain ⟨c, R, e, r⟩ := h
  exact ⟨c, R, e, r.same hs⟩

theorem Intact.expandNodes {T T' : TPTree K d} (h : Intact T) {ess : Option K} {nMin maxParts : ℕ} {ps acc out : List ℕ}
    (hx : TPTree.expandNodes ess nMin maxParts T ps acc = .ok (T', out)) : Intact T' := by
  obtain ⟨c, R, e, r⟩ := h
  obtain ⟨e', r'⟩ := expandNodes_reached ps r hx
  exact ⟨c, R, e', r'⟩

theorem new_intact {dmin dmax : Pt K d} {S : TPSampler K d} (h : new dmin dmax = .ok S) : Intact S.T := by
  obtain ⟨R, _, r⟩ := new_mixTree h
  exact ⟨_, R, _, r⟩

/-! The pieces of an iteration. -/

/-- The counters of a sampler after the resampling step. -/
def resampled (S : TPSampler K d) (T : TPTree K d) : TPSampler K d :=
  { S with T := T, numQ := S.numQ + S.T.leaves.length, numPi := S.numPi + S.T.leaves.length
           numQEvals := S.numQEvals + S.T.leaves.length }

theorem pays_map {α β γ δ : Type*} {p : α → β} {a : ℕ} {cost : γ → ℕ} {cost' : δ → ℕ} {f : (α → β) → Except PyErr γ}
    (h : PaysOk p a cost f) {g : γ → δ} (hg : ∀ r, cost r ≤ cost' (g r)) : PaysOk p a cost' (fun t => (f t).map g) := by
  have e : ∀ t, (f t).map g = (f t).bind fun r => .ok (g r) := fun t => by cases f t <;> rfl
  simp only [e]
  refine PaysOk.bind h fun r _ => PaysOk.const ?_
  rintro r' h'
  simp only [Except.ok.injEq] at h'
  rw [← h']
  exact hg r

theorem weighNode_pays (target : Pt K d → XF K) (T : TPTree K d) (i : ℕ) (q : Pt K d → XF K) (a : ℕ) :
    PaysOk target a (fun _ => a + 1) (fun f => T.weighNode i f q) := by
  refine PaysOk.points ((T.nodes[i]?).map TPNode.coords).toList (fun p' hp => weighNode_congr hp) fun r _ => ?_
  cases T.nodes[i]? <;> simp

theorem visit_pays (target : Pt K d → XF K) (draw : ℕ → Pt K d) (S : TPSampler K d) (p : ℕ) :
    PaysOk target S.numPi numPi (fun f => visit f draw S p) := by
  unfold visit
  cases hn : S.T.nodes[p]? with
  | none => exact PaysOk.const (by simp)
  | some n =>
    simp only [bind, pure, Except.pure]
    cases h1 : S.T.sampleNode p (n.sampler.sample1 (draw p)) with
    | error e => exact PaysOk.const (by simp [Except.bind])
    | ok T1 =>
      simp only [Except.bind]
      exact PaysOk.bind (cost := fun _ => S.numPi + 1) (cost' := numPi) (weighNode_pays target T1 p n.sampler.prob1 S.numPi)
        (g := fun _ T2 => Except.ok { S with T := T2, numQ := S.numQ + 1, numPi := S.numPi + 1, numQEvals := S.numQEvals + 1 })
        fun r _ => PaysOk.const (by rintro r' h'; simp only [Except.ok.injEq] at h'; rw [← h'])

theorem visit_same {target : Pt K d → XF K} {draw : ℕ → Pt K d} {S S' : TPSampler K d} {p : ℕ}
    (h : visit target draw S p = .ok S') : Same S.T S'.T ∧ (Settled S.T → Settled S'.T) := by
  unfold visit at h
  split at h
  · cases h
  simp only [bind, Except.bind, pure, Except.pure] at h
  split at h
  · cases h
  rename_i T1 h1
  split at h
  · cases h
  rename_i T2 h2
  simp only [Except.ok.injEq] at h
  rw [← h]
  exact ⟨(sampleNode_same h1).trans (weighNode_same h2), fun hs => weighNode_settled h2 (Or.inl (sampleNode_settled h1 hs))⟩

theorem visitMix_pays (target : Pt K d → XF K) (it : TPMixIter K d) (S : TPSampler K d) (p : ℕ) :
    PaysOk target S.numPi numPi (fun f => visitMix f it S p) := by
  unfold visitMix
  simp only [bind, pure, Except.pure]
  cases boxesSample S.model (fun _ => it.comp p) (fun _ => it.draw p) 1 with
  | error e => exact PaysOk.const (by simp [Except.bind])
  | ok xs =>
    simp only [Except.bind]
    cases h1 : S.T.sampleNode p (xs.headD fun _ => 0) with
    | error e => exact PaysOk.const (by simp)
    | ok T1 =>
      simp only
      cases h2 : T1.prob1 (xs.headD fun _ => 0) with
      | error e => exact PaysOk.const (by simp)
      | ok q =>
        simp only
        exact PaysOk.bind (cost := fun _ => S.numPi + 1) (cost' := numPi) (weighNode_pays target T1 p (fun _ => q) S.numPi)
          (g := fun _ T2 => Except.ok { S with T := T2, numQ := S.numQ + 1, numPi := S.numPi + 1, numQEvals := S.numQEvals + 1 })
          fun r _ => PaysOk.const (by rintro r' h'; simp only [Except.ok.injEq] at h'; rw [← h'])

theorem visitMix_settled {target : Pt K d → XF K} {it : TPMixIter K d} {S S' : TPSampler K d} {p : ℕ}
    (h : visitMix target it S p = .ok S') (hs : Settled S.T) : Settled S'.T := by
  unfold visitMix at h
  simp only [bind, Except.bind, pure, Except.pure] at h
  split at h
  · cases h
  split at h
  · cases h
  rename_i T1 h1
  split at h
  · cases h
  split at h
  · cases h
  rename_i T2 h2
  simp only [Except.ok.injEq] at h
  rw [← h]
  exact weighNode_settled h2 (Or.inl (sampleNode_settled h1 hs))

theorem foldlM_pays {target : Pt K d → XF K} {v : (Pt K d → XF K) → TPSampler K d → ℕ → Except PyErr (TPSampler K d)}
    (h : ∀ S p, PaysOk target S.numPi numPi (fun f => v f S p)) : ∀ (ps : List ℕ) (S : TPSampler K d),
    PaysOk target S.numPi numPi (fun f => ps.foldlM (v f) S)
  | [], S => PaysOk.const (by
    rintro r h'
    simp only [List.foldlM_nil, pure, Except.pure, Except.ok.injEq] at h'
    rw [h'])
  | p :: ps, S => by
    simp only [List.foldlM_cons, bind]
    exact PaysOk.bind (h S p) fun r _ => foldlM_pays h ps r

theorem foldlM_keeps {v : TPSampler K d → ℕ → Except PyErr (TPSampler K d)}
    (h : ∀ S p S', v S p = .ok S' → Same S.T S'.T ∧ (Settled S.T → Settled S'.T)) : ∀ (ps : List ℕ) {S S' : TPSampler K d},
    ps.foldlM v S = .ok S' → Same S.T S'.T ∧ (Settled S.T → Settled S'.T)
  | [], S, S', h' => by
    simp only [List.foldlM_nil, pure, Except.pure, Except.ok.injEq] at h'
    rw [← h']
    exact ⟨Same.refl _, id⟩
  | p :: ps, S, S', h' => by
    simp only [List.foldlM_cons, bind, Except.bind] at h'
    cases h1 : v S p with
    | error => simp [h1] at h'
    | ok S1 =>
      rw [h1] at h'
      obtain ⟨a, b⟩ := h S p S1 h1
      obtain ⟨a', b'⟩ := foldlM_keeps h ps h'
      exact ⟨a.trans a', fun hs => b' (b hs)⟩

theorem resample_pays (target : Pt K d → XF K) {S : TPSampler K d} (I : Intact S.T) (u : ℕ → Pt K d) :
    PaysOk target S.numPi numPi (fun f => (S.T.resample f u).map (resampled S)) := by
  refine PaysOk.points (S.T.rePoints u) (fun p' hp => by rw [resample_congr hp]) fun r hr => ?_
  cases h : S.T.resample target u with
  | error => simp [h, Except.map] at hr
  | ok T =>
    simp only [h, Except.map, Except.ok.injEq] at hr
    rw [← hr, length_rePoints I.wf]
    exact le_refl _

/-- The end of an iteration: the new nodes are visited, then the leaves are resampled. -/
def rest (v : TPSampler K d → ℕ → Except PyErr (TPSampler K d)) (re : Bool) (target : Pt K d → XF K) (u : ℕ → Pt K d)
    (new : List ℕ) (S : TPSampler K d) : Except PyErr (TPSampler K d) :=
  (new.foldlM v S).bind fun S2 => if re then (S2.T.resample target u).map (resampled S2) else .ok S2

theorem rest_pays {target : Pt K d → XF K} {v : (Pt K d → XF K) → TPSampler K d → ℕ → Except PyErr (TPSampler K d)}
    (h : ∀ S p, PaysOk target S.numPi numPi (fun f => v f S p))
    (hk : ∀ S p S', v target S p = .ok S' → Same S.T S'.T ∧ (Settled S.T → Settled S'.T))
    (re : Bool) (u : ℕ → Pt K d) (new : List ℕ) {S : TPSampler K d} (I : Intact S.T) :
    PaysOk target S.numPi numPi (fun f => rest (v f) re f u new S) := by
  unfold rest
  refine PaysOk.bind (foldlM_pays h new S) fun S2 h2 => ?_
  cases re with
  | true => exact resample_pays target (I.same (foldlM_keeps hk new h2).1) u
  | false => exact PaysOk.const (by rintro r h'; simp only [Bool.false_eq_true, if_false, Except.ok.injEq] at h'; rw [h'])

theorem rest_keeps {target : Pt K d → XF K} {v : TPSampler K d → ℕ → Except PyErr (TPSampler K d)}
    (hk : ∀ S p S', v S p = .ok S' → Same S.T S'.T ∧ (Settled S.T → Settled S'.T))
    {re : Bool} {u : ℕ → Pt K d} {new : List ℕ} {S S' : TPSampler K d} (h : rest v re target u new S = .ok S')
    (I : Intact S.T) : Intact S'.T ∧ (Settled S.T → Settled S'.T) := by
  unfold rest at h
  cases h2 : new.foldlM v S with
  | error => simp [h2, Except.bind] at h
  | ok S2 =>
    obtain ⟨a, b⟩ := foldlM_keeps hk new h2
    simp only [h2, Except.bind] at h
    cases re with
    | false =>
      simp only [Bool.false_eq_true, if_false, Except.ok.injEq] at h
      rw [← h]
      exact ⟨I.same a, b⟩
    | true =>
      simp only [if_true] at h
      cases h3 : S2.T.resample target u with
      | error => simp [h3, Except.map] at h
      | ok T3 =>
        simp only [h3, Except.map, Except.ok.injEq] at h
        rw [← h]
        exact ⟨(I.same a).same (resample_same (I.same a).wf h3), fun hs => resample_settled h3 (b hs)⟩

theorem iterate_eq (cfg : TPConfig K) (target : Pt K d → XF K) (it : TPIter K d) (S : TPSampler K d) :
    iterate cfg target it S = (TPTree.expandNodes cfg.essTarget cfg.nMin cfg.parallel S.T (sortedLeaves S.T) []).bind
      fun r => rest (visit target it.draw) cfg.leafResampling target it.redraw r.2 { S with T := r.1 } := by
  unfold iterate rest
  simp only [bind, pure, Except.pure]
  cases TPTree.expandNodes cfg.essTarget cfg.nMin cfg.parallel S.T (sortedLeaves S.T) [] with
  | error e => rfl
  | ok r =>
    simp only [Except.bind]
    cases r.2.foldlM (visit target it.draw) { S with T := r.1 } with
    | error e => rfl
    | ok S2 =>
      simp only
      split_ifs
      · cases S2.T.resample target it.redraw <;> rfl
      · rfl

theorem iterate_pays (cfg : TPConfig K) (target : Pt K d → XF K) (it : TPIter K d) {S : TPSampler K d} (I : Intact S.T) :
    PaysOk target S.numPi numPi (fun f => iterate cfg f it S) := by
  simp only [iterate_eq]
  cases hx : TPTree.expandNodes cfg.essTarget cfg.nMin cfg.parallel S.T (sortedLeaves S.T) [] with
  | error e => exact PaysOk.const (by simp [Except.bind])
  | ok r =>
    simp only [Except.bind]
    exact rest_pays (v := fun f => visit f it.draw) (fun S p => visit_pays target it.draw S p)
      (fun S p S' h => visit_same h) cfg.leafResampling it.redraw r.2 (S := { S with T := r.1 }) (I.expandNodes hx)

theorem iterate_keeps {cfg : TPConfig K} {target : Pt K d → XF K} {it : TPIter K d} {S S' : TPSampler K d}
    (I : Intact S.T) (h : iterate cfg target it S = .ok S') : Intact S'.T ∧ (Settled S.T → Settled S'.T) := by
  rw [iterate_eq] at h
  cases hx : TPTree.expandNodes cfg.essTarget cfg.nMin cfg.parallel S.T (sortedLeaves S.T) [] with
  | error e => simp [hx, Except.bind] at h
  | ok r =>
    simp only [hx, Except.bind] at h
    obtain ⟨a, b⟩ := rest_keeps (fun S p S' h => visit_same h) h (I.expandNodes hx)
    exact ⟨a, fun hs => b (expandNodes_settled _ hs hx)⟩

theorem iterateMix_eq (cfg : TPConfig K) (dmin dmax : Pt K d) (target : Pt K d → XF K) (fuel n hv : ℕ)
    (it : TPMixIter K d) (S : TPSampler K d) :
    iterateMix cfg dmin dmax target fuel n hv it S =
      (boxesSample S.model it.pick it.pickAt ((n - hv + (2 ^ d - 1)) / 2 ^ d)).bind fun pts =>
        (S.T.findUnique fuel (pts.map (clipPt dmin dmax))).bind fun q =>
          (TPTree.expandNodes cfg.essTarget cfg.nMin (n - hv) S.T q.1 []).bind fun r =>
            rest (visitMix target it) cfg.leafResampling target it.redraw r.2
              { S with T := r.1, numQ := S.numQ + (n - hv + (2 ^ d - 1)) / 2 ^ d } := by
  unfold iterateMix rest
  simp only [bind, pure, Except.pure]
  cases boxesSample S.model it.pick it.pickAt ((n - hv + (2 ^ d - 1)) / 2 ^ d) with
  | error e => rfl
  | ok pts =>
    simp only [Except.bind]
    cases S.T.findUnique fuel (pts.map (clipPt dmin dmax)) with
    | error e => rfl
    | ok q =>
      simp only
      cases TPTree.expandNodes cfg.essTarget cfg.nMin (n - hv) S.T q.1 [] with
      | error e => rfl
      | ok r =>
        simp only
        cases r.2.foldlM (visitMix target it) { S with T := r.1, numQ := S.numQ + (n - hv + (2 ^ d - 1)) / 2 ^ d } with
        | error e => rfl
        | ok S2 =>
          simp only
          split_ifs
          · cases S2.T.resample target it.redraw <;> rfl
          · rfl

theorem iterateMix_pays (cfg : TPConfig K) (dmin dmax : Pt K d) (target : Pt K d → XF K) (fuel n hv : ℕ)
    (it : TPMixIter K d) {S : TPSampler K d} (I : Intact S.T) :
    PaysOk target S.numPi numPi (fun f => iterateMix cfg dmin dmax f fuel n hv it S) := by
  simp only [iterateMix_eq]
  cases boxesSample S.model it.pick it.pickAt ((n - hv + (2 ^ d - 1)) / 2 ^ d) with
  | error e => exact PaysOk.const (by simp [Except.bind])
  | ok pts =>
    simp only [Except.bind]
    cases S.T.findUnique fuel (pts.map (clipPt dmin dmax)) with
    | error e => exact PaysOk.const (by simp)
    | ok q =>
      simp only
      cases hx : TPTree.expandNodes cfg.essTarget cfg.nMin (n - hv) S.T q.1 [] with
      | error e => exact PaysOk.const (by simp)
      | ok r =>
        simp only
        exact rest_pays (v := fun f => visitMix f it) (fun S p => visitMix_pays target it S p)
          (fun S p S' h => ⟨(visitMix_same h).1, visitMix_settled h⟩) cfg.leafResampling it.redraw r.2
          (S := { S with T := r.1, numQ := S.numQ + (n - hv + (2 ^ d - 1)) / 2 ^ d }) (I.expandNodes hx)

theorem iterateMix_keeps {cfg : TPConfig K} {dmin dmax : Pt K d} {target : Pt K d → XF K} {fuel n hv : ℕ}
    {it : TPMixIter K d} {S S' : TPSampler K d} (I : Intact S.T)
    (h : iterateMix cfg dmin dmax target fuel n hv it S = .ok S') : Intact S'.T := by
  rw [iterateMix_eq] at h
  cases h0 : boxesSample S.model it.pick it.pickAt ((n - hv + (2 ^ d - 1)) / 2 ^ d) with
  | error e => simp [h0, Except.bind] at h
  | ok pts =>
    simp only [h0, Except.bind] at h
    cases h1 : S.T.findUnique fuel (pts.map (clipPt dmin dmax)) with
    | error e => simp [h1] at h
    | ok q =>
      simp only [h1] at h
      cases hx : TPTree.expandNodes cfg.essTarget cfg.nMin (n - hv) S.T q.1 [] with
      | error e => simp [hx] at h
      | ok r =>
        simp only [hx] at h
        exact (rest_keeps (fun S p S' h => ⟨(visitMix_same h).1, visitMix_settled h⟩) h (I.expandNodes hx)).1

theorem loop_pays (cfg : TPConfig K) (target : Pt K d → XF K) (n : ℕ) : ∀ (its : List (TPIter K d)) (late : Bool)
    {S : TPSampler K d}, Intact S.T → PaysOk target S.numPi (fun r => r.1.numPi) (fun f => loop cfg f n late its S)
  | [], late, S, I => by
    simp only [loop]
    refine PaysOk.const ?_
    rintro r h
    simp only [bind, Except.bind, pure, Except.pure] at h
    split at h
    · cases h
    simp only [Except.ok.injEq] at h
    rw [← h]
  | it :: its, late, S, I => by
    simp only [loop, bind, pure, Except.pure]
    cases S.T.getSamples cfg.essTarget with
    | error e => exact PaysOk.const (by simp [Except.bind])
    | ok o =>
      simp only [Except.bind]
      by_cases hc : o.2.length < n ∧ late = false
      · simp only [hc, and_self, if_true]
        refine PaysOk.bind (g := fun f S' => loop cfg f n it.late its S') (iterate_pays cfg target it I) fun r hr => ?_
        exact loop_pays cfg target n its it.late (iterate_keeps I hr).1
      · simp only [hc, if_false]
        exact PaysOk.const (by rintro r h; simp only [Except.ok.injEq] at h; rw [← h])

theorem loop_keeps {cfg : TPConfig K} {target : Pt K d → XF K} {n : ℕ} : ∀ (its : List (TPIter K d)) (late : Bool)
    {S : TPSampler K d} {r : TPSampler K d × Bool}, Intact S.T → loop cfg target n late its S = .ok r →
    Intact r.1.T ∧ (Settled S.T → Settled r.1.T)
  | [], late, S, r, I, h => by
    simp only [loop, bind, Except.bind, pure, Except.pure] at h
    split at h
    · cases h
    simp only [Except.ok.injEq] at h
    rw [← h]
    exact ⟨I, id⟩
  | it :: its, late, S, r, I, h => by
    simp only [loop, bind, Except.bind, pure, Except.pure] at h
    split at h
    · cases h
    split_ifs at h
    · split at h
      · cases h
      rename_i S1 h1
      obtain ⟨a, b⟩ := iterate_keeps I h1
      obtain ⟨a', b'⟩ := loop_keeps its it.late a h
      exact ⟨a', fun hs => b' (b hs)⟩
    · simp only [Except.ok.injEq] at h
      rw [← h]
      exact ⟨I, id⟩

theorem loopMix_pays (cfg : TPConfig K) (dmin dmax : Pt K d) (target : Pt K d → XF K) (fuel n : ℕ) :
    ∀ (its : List (TPMixIter K d)) (late : Bool) {S : TPSampler K d}, Intact S.T →
    PaysOk target S.numPi (fun r => r.1.numPi) (fun f => loopMix cfg dmin dmax f fuel n late its S)
  | [], late, S, I => by
    simp only [loopMix]
    refine PaysOk.const ?_
    rintro r h
    simp only [bind, Except.bind, pure, Except.pure] at h
    split at h
    · cases h
    simp only [Except.ok.injEq] at h
    rw [← h]
  | it :: its, late, S, I => by
    simp only [loopMix, bind, pure, Except.pure]
    cases S.T.getSamples cfg.essTarget with
    | error e => exact PaysOk.const (by simp [Except.bind])
    | ok o =>
      simp only [Except.bind]
      by_cases hc : o.2.length < n ∧ late = false
      · simp only [hc, and_self, if_true]
        refine PaysOk.bind (g := fun f S' => loopMix cfg dmin dmax f fuel n it.late its S')
          (iterateMix_pays cfg dmin dmax target fuel n o.2.length it I) fun r hr => ?_
        exact loopMix_pays cfg dmin dmax target fuel n its it.late (iterateMix_keeps I hr)
      · simp only [hc, if_false]
        exact PaysOk.const (by rintro r h; simp only [Except.ok.injEq] at h; rw [← h])

theorem loopMix_keeps {cfg : TPConfig K} {dmin dmax : Pt K d} {target : Pt K d → XF K} {fuel n : ℕ} :
    ∀ (its : List (TPMixIter K d)) (late : Bool) {S : TPSampler K d} {r : TPSampler K d × Bool}, Intact S.T →
    loopMix cfg dmin dmax target fuel n late its S = .ok r → Intact r.1.T
  | [], late, S, r, I, h => by
    simp only [loopMix, bind, Except.bind, pure, Except.pure] at h
    split at h
    · cases h
    simp only [Except.ok.injEq] at h
    rw [← h]
    exact I
  | it :: its, late, S, r, I, h => by
    simp only [loopMix, bind, Except.bind, pure, Except.pure] at h
    split at h
    · cases h
    split_ifs at h
    · split at h
      · cases h
      rename_i S1 h1
      exact loopMix_keeps its it.late (iterateMix_keeps I h1) h
    · simp only [Except.ok.injEq] at h
      rw [← h]
      exact I

theorem updateModel_numPi {S S' : TPSampler K d} (h : S.updateModel = .ok S') : S'.numPi = S.numPi := by
  unfold updateModel at h
  cases hs : setWeights ((maskSelect S.T.leavesIdx S.T.centers).zip (maskSelect S.T.leavesIdx S.T.radii)).length
      (maskSelect S.T.leavesIdx S.T.weights) with
  | error => simp only [hs, Except.map] at h; cases h
  | ok st =>
    simp only [hs, Except.map, Except.ok.injEq] at h
    rw [← h]

theorem updateModel_settled {S S' : TPSampler K d} (I : WF S.T) (h : S.updateModel = .ok S') (hs : Settled S.T) :
    Settled S'.T := by
  obtain ⟨n, hn, h0⟩ := hs
  exact ⟨n, by rw [(updateModel_same I h).2, selfNormalize_nodes]; exact hn, h0⟩

/-- What happens after the loop. -/
def finish (cfg : TPConfig K) (r : TPSampler K d × Bool) :
    Except PyErr (TPSampler K d × Option (List (Pt K d) × List (XF K))) :=
  if r.2 then r.1.updateModel.bind fun S2 => (S2.T.getSamples cfg.essTarget).map fun out => (S2, some out)
  else .ok (r.1, none)

theorem finish_spec {cfg : TPConfig K} {r : TPSampler K d × Bool}
    {o : TPSampler K d × Option (List (Pt K d) × List (XF K))} (h : finish cfg r = .ok o) (I : Intact r.1.T) :
    o.1.numPi = r.1.numPi ∧ Intact o.1.T ∧ (Settled r.1.T → Settled o.1.T) := by
  unfold finish at h
  split_ifs at h
  · cases hu : r.1.updateModel with
    | error => simp [hu, Except.bind] at h
    | ok S2 =>
      simp only [hu, Except.bind] at h
      cases hg : S2.T.getSamples cfg.essTarget with
      | error => simp [hg, Except.map] at h
      | ok out =>
        simp only [hg, Except.map, Except.ok.injEq] at h
        rw [← h]
        exact ⟨updateModel_numPi hu, I.same (updateModel_same I.wf hu).1, updateModel_settled I.wf hu⟩
  · simp only [Except.ok.injEq] at h
    rw [← h]
    exact ⟨rfl, I, id⟩

theorem simple_eq (cfg : TPConfig K) (target : Pt K d → XF K) (n : ℕ) (u0 : Pt K d) (its : List (TPIter K d))
    (S : TPSampler K d) : importanceSampleSimple cfg target n u0 its S =
      (initRoot target u0 S).bind fun S0 => (loop cfg target n false its S0).bind (finish cfg) := by
  unfold importanceSampleSimple finish
  simp only [bind, pure, Except.pure]
  cases initRoot target u0 S with
  | error e => rfl
  | ok S0 =>
    simp only [Except.bind]
    cases loop cfg target n false its S0 with
    | error e => rfl
    | ok r =>
      simp only
      split_ifs
      · cases r.1.updateModel with
        | error => rfl
        | ok S2 =>
          simp only
          cases S2.T.getSamples cfg.essTarget <;> rfl
      · rfl

theorem mix_eq (cfg : TPConfig K) (dmin dmax : Pt K d) (target : Pt K d → XF K) (fuel : ℕ) (c : TPMixCall K d)
    (S : TPSampler K d) : importanceSampleMix cfg dmin dmax target fuel c S =
      (initRootMix target c.u0 S).bind fun S0 =>
        (loopMix cfg dmin dmax target fuel c.n false c.its S0).bind (finish cfg) := by
  unfold importanceSampleMix finish
  simp only [bind, pure, Except.pure]
  cases initRootMix target c.u0 S with
  | error e => rfl
  | ok S0 =>
    simp only [Except.bind]
    cases loopMix cfg dmin dmax target fuel c.n false c.its S0 with
    | error e => rfl
    | ok r =>
      simp only
      split_ifs
      · cases r.1.updateModel with
        | error => rfl
        | ok S2 =>
          simp only
          cases S2.T.getSamples cfg.essTarget <;> rfl
      · rfl

/-- The first sample of the root: one evaluation that is not counted. -/
theorem initRoot_looks (target : Pt K d → XF K) (u : Pt K d) (S : TPSampler K d) :
    PaysOk target S.numPi (fun r => r.numPi + 1) (fun f => initRoot f u S) := by
  unfold initRoot
  cases hn : S.T.nodes[0]? with
  | none => exact PaysOk.const (by simp)
  | some root =>
    simp only
    by_cases hc : root.histDeleted = false ∧ root.weightHist = none
    · simp only [hc, and_self, if_true, bind]
      cases h1 : S.T.sampleNode 0 (root.sampler.sample1 u) with
      | error e => exact PaysOk.const (by simp [Except.bind])
      | ok T1 =>
        refine PaysOk.bind (cost := fun _ => S.numPi + 1) (weighNode_pays target T1 0 root.sampler.prob1 S.numPi)
          (g := fun _ T2 => updateModel { S with T := T2, numQ := S.numQ + 1 }) fun r _ => PaysOk.const ?_
        rintro r' h'
        rw [updateModel_numPi h']
    · simp only [hc, if_false]
      exact PaysOk.const (by rintro r h; simp only [Except.ok.injEq] at h; rw [← h]; simp)

theorem initRoot_keeps {target : Pt K d → XF K} {u : Pt K d} {S S' : TPSampler K d} (I : Intact S.T)
    (h : initRoot target u S = .ok S') : Intact S'.T ∧ Settled S'.T ∧ S'.numPi = S.numPi := by
  unfold initRoot at h
  split at h
  · cases h
  rename_i root hn
  split_ifs at h with hc
  · simp only [bind, Except.bind] at h
    split at h
    · cases h
    rename_i T1 h1
    split at h
    · cases h
    rename_i T2 h2
    have I2 := (I.same (sampleNode_same h1)).same (weighNode_same h2)
    refine ⟨I2.same (updateModel_same (S := { S with T := T2, numQ := S.numQ + 1 }) I2.wf h).1,
      updateModel_settled (S := { S with T := T2, numQ := S.numQ + 1 }) I2.wf h (weighNode_settled h2 (Or.inr rfl)), ?_⟩
    exact updateModel_numPi (S := { S with T := T2, numQ := S.numQ + 1 }) h
  · simp only [Except.ok.injEq] at h
    rw [← h]
    refine ⟨I, ⟨root, hn, ?_⟩, rfl⟩
    cases hd : root.histDeleted with
    | true => exact Or.inl rfl
    | false => exact Or.inr fun hw => hc ⟨hd, hw⟩

theorem initRoot_settled {target : Pt K d → XF K} {u : Pt K d} {S : TPSampler K d} (hs : Settled S.T) :
    initRoot target u S = .ok S := by
  obtain ⟨n, hn, h0⟩ := hs
  have hc : ¬ (n.histDeleted = false ∧ n.weightHist = none) := by
    rintro ⟨a, b⟩
    rcases h0 with h0 | h0
    · rw [a] at h0; cases h0
    · exact h0 b
  unfold initRoot
  rw [hn]
  simp only [hc, if_false]

theorem simple_keeps {cfg : TPConfig K} {target : Pt K d → XF K} {n : ℕ} {u0 : Pt K d} {its : List (TPIter K d)}
    {S : TPSampler K d} (I : Intact S.T) {r : TPSampler K d × Option (List (Pt K d) × List (XF K))}
    (h : importanceSampleSimple cfg target n u0 its S = .ok r) : Intact r.1.T ∧ Settled r.1.T := by
  rw [simple_eq] at h
  cases h0 : initRoot target u0 S with
  | error => simp [h0, Except.bind] at h
  | ok S0 =>
    obtain ⟨I0, s0, _⟩ := initRoot_keeps I h0
    simp only [h0, Except.bind] at h
    cases h1 : loop cfg target n false its S0 with
    | error => simp [h1] at h
    | ok q =>
      simp only [h1] at h
      obtain ⟨I1, s1⟩ := loop_keeps its false I0 h1
      obtain ⟨_, a, b⟩ := finish_spec h I1
      exact ⟨a, b (s1 s0)⟩

theorem calls_keeps {cfg : TPConfig K} {target : Pt K d → XF K} : ∀ (cs : List (TPCall K d)) {S S' : TPSampler K d},
    Intact S.T → S.calls cfg target cs = .ok S' → Intact S'.T ∧ (Settled S.T ∨ cs ≠ [] → Settled S'.T)
  | [], S, S', I, h => by
    simp only [calls, List.foldlM_nil, pure, Except.pure, Except.ok.injEq] at h
    rw [← h]; exact ⟨I, fun h => h.resolve_right (by simp)⟩
  | c :: cs, S, S', I, h => by
    simp only [calls, List.foldlM_cons, bind, Except.bind] at h
    cases h1 : importanceSampleSimple cfg target c.n c.u0 c.its S with
    | error => simp [h1, Except.map] at h
    | ok o =>
      simp only [h1, Except.map] at h
      obtain ⟨a, b⟩ := simple_keeps I h1
      obtain ⟨a', b'⟩ := calls_keeps cs a h
      exact ⟨a', fun _ => b' (Or.inl b)⟩

/-- The loop and what follows. -/
theorem tail_pays (cfg : TPConfig K) (target : Pt K d → XF K) (n : ℕ) (its : List (TPIter K d)) {S : TPSampler K d}
    (I : Intact S.T) : PaysOk target S.numPi (fun r => r.1.numPi)
      (fun f => (loop cfg f n false its S).bind (finish cfg)) :=
  PaysOk.bind (g := fun _ => finish cfg) (loop_pays cfg target n its false I) fun r hr => PaysOk.const fun o ho =>
    (finish_spec ho (loop_keeps its false I hr).1).1.ge

/-- **C139** (tree pyramid, scheme "simple") For an object that made any successful calls `cs` since its construction:
the outcome of a further call that does not raise depends on at most as many values of the target as the call adds to the
reported number, plus one; and the extra one is only needed in the first call.

Missing to the full property: the extra one of the first call (`C139_refuted`). -/
theorem C139_partial {dmin dmax : Pt K d} {S0 S : TPSampler K d} (h0 : new dmin dmax = .ok S0) (cfg : TPConfig K)
    (target : Pt K d → XF K) (cs : List (TPCall K d)) (hS : S0.calls cfg target cs = .ok S) (n : ℕ) (u0 : Pt K d)
    (its : List (TPIter K d)) {r : TPSampler K d × Option (List (Pt K d) × List (XF K))}
    (h : importanceSampleSimple cfg target n u0 its S = .ok r) :
    S.numPi ≤ r.1.numPi ∧
    LooksAt (fun t => importanceSampleSimple cfg t n u0 its S) target
      (r.1.numPi - S.numPi + if cs = [] then 1 else 0) := by
  obtain ⟨I, hs⟩ := calls_keeps cs (new_intact h0) hS
  by_cases hcs : cs = []
  · have hp : PaysOk target S.numPi (fun r => r.1.numPi + 1) (fun t => importanceSampleSimple cfg t n u0 its S) := by
      simp only [simple_eq]
      refine PaysOk.bind (initRoot_looks target u0 S)
        (g := fun f S0 => (loop cfg f n false its S0).bind (finish cfg)) fun S1 h1 => ?_
      intro o ho
      obtain ⟨k, a, b⟩ := tail_pays cfg target n its (initRoot_keeps I h1).1 o ho
      exact ⟨k, by simp only at a ⊢; omega, b⟩
    have hle : S.numPi ≤ r.1.numPi := by
      have h' := h
      rw [simple_eq] at h'
      cases h1 : initRoot target u0 S with
      | error => simp [h1, Except.bind] at h'
      | ok S1 =>
        simp only [h1, Except.bind] at h'
        have := (tail_pays cfg target n its (initRoot_keeps I h1).1).le h'
        rw [(initRoot_keeps I h1).2.2] at this
        exact this
    refine ⟨hle, (hp.looksAt h).mono ?_⟩
    rw [if_pos hcs]
    omega
  · have hset := hs (Or.inr hcs)
    have hp : PaysOk target S.numPi (fun r => r.1.numPi) (fun t => importanceSampleSimple cfg t n u0 its S) := by
      simp only [simple_eq, initRoot_settled hset]
      exact tail_pays cfg target n its I
    refine ⟨hp.le h, (hp.looksAt h).mono ?_⟩
    rw [if_neg hcs]
    exact le_refl _

theorem initRootMix_pays (target : Pt K d → XF K) (u : Pt K d) (S : TPSampler K d) :
    PaysOk target S.numPi numPi (fun f => initRootMix f u S) := by
  unfold initRootMix
  cases hn : S.T.nodes[0]? with
  | none => exact PaysOk.const (by simp)
  | some root =>
    simp only
    by_cases hc : root.histDeleted = false ∧ root.weightHist = none
    · simp only [hc, and_self, if_true, bind]
      cases h1 : S.T.sampleNode 0 (root.sampler.sample1 u) with
      | error e => exact PaysOk.const (by simp [Except.bind])
      | ok T1 =>
        refine PaysOk.bind (cost := fun _ => S.numPi + 1) (weighNode_pays target T1 0 root.sampler.prob1 S.numPi)
          (g := fun _ T2 => updateModel { S with
            T := T2, numQ := S.numQ + 1, numPi := S.numPi + 1, numQEvals := S.numQEvals + 1 }) fun r _ => PaysOk.const ?_
        rintro r' h'
        rw [updateModel_numPi h']
    · simp only [hc, if_false]
      exact PaysOk.const (by rintro r h; simp only [Except.ok.injEq] at h; rw [← h])

theorem mix_keeps {cfg : TPConfig K} {dmin dmax : Pt K d} {target : Pt K d → XF K} {fuel : ℕ} {c : TPMixCall K d}
    {S : TPSampler K d} (I : Intact S.T) {r : TPSampler K d × Option (List (Pt K d) × List (XF K))}
    (h : importanceSampleMix cfg dmin dmax target fuel c S = .ok r) : Intact r.1.T := by
  rw [mix_eq] at h
  cases h0 : initRootMix target c.u0 S with
  | error => simp [h0, Except.bind] at h
  | ok S0 =>
    have I0 := I.same (initRootMix_same I.wf h0)
    simp only [h0, Except.bind] at h
    cases h1 : loopMix cfg dmin dmax target fuel c.n false c.its S0 with
    | error => simp [h1] at h
    | ok q =>
      simp only [h1] at h
      exact (finish_spec h (loopMix_keeps c.its false I0 h1)).2.1

theorem callsMix_keeps {cfg : TPConfig K} {dmin dmax : Pt K d} {target : Pt K d → XF K} {fuel : ℕ} :
    ∀ (cs : List (TPMixCall K d)) {S S' : TPSampler K d}, Intact S.T →
    S.callsMix cfg dmin dmax target fuel cs = .ok S' → Intact S'.T
  | [], S, S', I, h => by
    simp only [callsMix, List.foldlM_nil, pure, Except.pure, Except.ok.injEq] at h
    rw [← h]; exact I
  | c :: cs, S, S', I, h => by
    simp only [callsMix, List.foldlM_cons, bind, Except.bind] at h
    cases h1 : importanceSampleMix cfg dmin dmax target fuel c S with
    | error => simp [h1, Except.map] at h
    | ok o =>
      simp only [h1, Except.map] at h
      exact callsMix_keeps cs (mix_keeps I h1) h

/-- **C139** (tree pyramid, schemes "mixture" and "dm") Here every call that does not raise reports what it looked at. -/
theorem C139_mixture_partial {dmin dmax : Pt K d} {S0 S : TPSampler K d} (h0 : new dmin dmax = .ok S0) (cfg : TPConfig K)
    (target : Pt K d → XF K) (fuel : ℕ) (cs : List (TPMixCall K d))
    (hS : S0.callsMix cfg dmin dmax target fuel cs = .ok S) (c : TPMixCall K d)
    {r : TPSampler K d × Option (List (Pt K d) × List (XF K))}
    (h : importanceSampleMix cfg dmin dmax target fuel c S = .ok r) :
    S.numPi ≤ r.1.numPi ∧
    LooksAt (fun t => importanceSampleMix cfg dmin dmax t fuel c S) target (r.1.numPi - S.numPi) := by
  have I := callsMix_keeps cs (new_intact h0) hS
  have hp : PaysOk target S.numPi (fun r => r.1.numPi) (fun t => importanceSampleMix cfg dmin dmax t fuel c S) := by
    simp only [mix_eq]
    refine PaysOk.bind (initRootMix_pays target c.u0 S)
      (g := fun f S0 => (loopMix cfg dmin dmax f fuel c.n false c.its S0).bind (finish cfg)) fun S1 h1 => ?_
    have I1 := I.same (initRootMix_same I.wf h1)
    exact PaysOk.bind (g := fun _ => finish cfg) (loopMix_pays cfg dmin dmax target fuel c.n c.its false I1)
      fun r hr => PaysOk.const fun o ho => (finish_spec ho (loopMix_keeps c.its false I1 hr)).1.ge
  exact ⟨hp.le h, hp.looksAt h⟩

/-- Two calls: the first one for one sample, the second one for two samples, which splits the root and counts the two new
evaluations. -/
def twoCalls (t : Pt ℚ 1 → XF ℚ) : Except PyErr (ℕ × ℕ × Option (List (XF ℚ))) :=
  (new ![-1] ![1]).bind fun S0 => (S0.calls ⟨some 2, 1, 1, false⟩ t [⟨1, fun _ => 1 / 2, []⟩]).bind fun S =>
    (importanceSampleSimple ⟨some 2, 1, 1, false⟩ t 2 (fun _ => 1 / 2) [⟨fun _ _ => 1 / 4, fun _ _ => 1 / 2, false⟩] S).map
      fun r => (S.numPi, r.1.numPi, r.2.map Prod.snd)

/-- The hypotheses of `C139_partial` hold for `twoCalls`. -/
example : twoCalls (fun x => XF.fin (2 + x 0)) = .ok (0, 2, some [XF.fin (5 / 14), XF.fin (9 / 14)]) := by decide +kernel

/-- The call of `C139_refuted`: one sample from a new object on `[-1, 1]`; the point drawn is the origin. The result shows
the reported number before and after the call, and the weights. -/
def oneSample (t : Pt ℚ 1 → XF ℚ) : Except PyErr (ℕ × ℕ × Option (List (XF ℚ))) :=
  (new ![-1] ![1]).bind fun S => (importanceSampleSimple ⟨some 2, 1, 1, false⟩ t 1 (fun _ => 1 / 2) [] S).map fun r =>
    (S.numPi, r.1.numPi, r.2.map Prod.snd)

/-- **C139_refuted** A call on a new tree pyramid sampler returns a sample whose weight depends on the value of the target,
and reports no evaluation of the target. -/
theorem C139_refuted : ∃ (dmin dmax : Pt ℚ 1) (S : TPSampler ℚ 1) (cfg : TPConfig ℚ) (n : ℕ) (u0 : Pt ℚ 1)
    (target : Pt ℚ 1 → XF ℚ) (r : TPSampler ℚ 1 × Option (List (Pt ℚ 1) × List (XF ℚ))),
    new dmin dmax = .ok S ∧ importanceSampleSimple cfg target n u0 [] S = .ok r ∧ r.2.isSome ∧ r.1.numPi = 0 ∧
    ¬ LooksAt (fun t => (importanceSampleSimple cfg t n u0 [] S).map fun r => r.2.map Prod.snd) target 0 := by
  have h1 : oneSample (fun _ => XF.fin 1) = .ok (0, 0, some [XF.fin 1]) := by decide +kernel
  have h0 : oneSample (fun _ => XF.fin 0) = .ok (0, 0, some [XF.fin 0]) := by decide +kernel
  unfold oneSample at h0 h1
  cases hn : new (![-1] : Pt ℚ 1) ![1] with
  | error e => simp [hn, Except.bind] at h1
  | ok S =>
    simp only [hn, Except.bind] at h0 h1
    cases hr : importanceSampleSimple ⟨some 2, 1, 1, false⟩ (fun _ => XF.fin 1) 1 (fun _ => 1 / 2) [] S with
    | error e => rw [hr] at h1; cases h1
    | ok r =>
      cases hr0 : importanceSampleSimple ⟨some 2, 1, 1, false⟩ (fun _ => XF.fin 0) 1 (fun _ => 1 / 2) [] S with
      | error e => rw [hr0] at h0; cases h0
      | ok r0 =>
        simp only [hr, hr0, Except.map, Except.ok.injEq, Prod.mk.injEq] at h0 h1
        refine ⟨![-1], ![1], S, ⟨some 2, 1, 1, false⟩, 1, fun _ => 1 / 2, fun _ => XF.fin 1, r, hn, hr, ?_, h1.2.1, ?_⟩
        · cases hr2 : r.2 with
          | none => simp [hr2] at h1
          | some o => rfl
        · rintro ⟨pts, hl, h⟩
          have hp : pts = [] := List.length_eq_zero_iff.1 (Nat.le_zero.1 hl)
          have := h (fun _ => XF.fin 0) (by simp [hp])
          simp only [hr, hr0, Except.map, Except.ok.injEq, h0.2.2, h1.2.2, Option.some.injEq, List.cons.injEq,
            and_true, XF.fin.injEq] at this
          norm_num at this

end TPSampler
end Verif
