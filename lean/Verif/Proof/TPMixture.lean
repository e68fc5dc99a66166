import Verif.Model.TPMixture
import Verif.Proof.TPSampler
import Verif.Proof.TPSamples

set_option linter.unusedSectionVars false
set_option autoImplicit false

namespace Verif

variable {K : Type*} [Field K] [LinearOrder K] [IsStrictOrderedRing K] {d : ℕ}

namespace TPTree

/-- In an expanded tree `find` uses up every recursion bound. -/
theorem Reached.find_inner {c : Pt K d} {R : K} {T : TPTree K d} {e : ℕ} (r : Reached c R T e) (he : 0 < e)
    {x : Pt K d} (hx : ∀ i, c i - R ≤ x i ∧ x i ≤ c i + R) : ∀ (fuel : ℕ) (prev : Option ℕ),
    T.find x fuel prev = .error .runtime := by
  obtain ⟨root, hroot, hc, hr, _⟩ := r.root
  have hinner : root.isLeaf = false := by
    rcases r.inner with h0 | ⟨n, hn, hl⟩
    · omega
    · rw [hroot] at hn
      obtain rfl : root = n := by simpa using hn
      exact hl
  have hcon : root.contains x := by
    intro i
    rw [hc, hr]; exact hx i
  obtain ⟨k, m, hk, _⟩ := getChild_spec r.kids hroot hinner hcon
  intro fuel
  induction fuel with
  | zero => intro prev; rfl
  | succ fuel ih =>
    intro prev
    simp only [TPTree.find, hroot, hinner, hk]
    simpa using ih (some k)

/-- With a single node `find` returns it. -/
theorem Reached.root_leaf {c : Pt K d} {R : K} {T : TPTree K d} (r : Reached c R T 0) :
    T.leaves = [0] ∧ ∃ n, T.nodes[0]? = some n ∧ n.isLeaf = true ∧ T.nodes = [n] := by
  have hL := r.nLeaves
  have hN := r.nNodes
  simp only [Nat.zero_mul, Nat.add_zero] at hL hN
  obtain ⟨p, hp⟩ := List.length_eq_one_iff.1 hL
  obtain ⟨m, hm, hml⟩ := r.wf.leafPos 0 p (by simp [hp])
  have hp0 : p = 0 := by
    have := (List.getElem?_eq_some_iff.1 hm).1
    omega
  subst hp0
  refine ⟨hp, m, hm, ?_, ?_⟩
  · rw [isLeaf_iff, hml]; decide
  · obtain ⟨m', hm'⟩ := List.length_eq_one_iff.1 hN
    rw [hm'] at hm ⊢
    simpa using hm

theorem Reached.find_root {c : Pt K d} {R : K} {T : TPTree K d} (r : Reached c R T 0) (x : Pt K d) (fuel : ℕ)
    (prev : Option ℕ) : T.find x (fuel + 1) prev = .ok 0 := by
  obtain ⟨_, n, hn, hl, _⟩ := r.root_leaf
  simp [TPTree.find, hn, hl]

/-- `find_unique` on an expanded tree. -/
theorem Reached.findUnique_inner {c : Pt K d} {R : K} {T : TPTree K d} {e : ℕ} (r : Reached c R T e) (he : 0 < e)
    {xs : List (Pt K d)} (hne : xs ≠ []) (hx : ∀ x ∈ xs, ∀ i, c i - R ≤ x i ∧ x i ≤ c i + R) (fuel : ℕ) :
    T.findUnique fuel xs = .error .runtime := by
  cases xs with
  | nil => exact absurd rfl hne
  | cons x xs =>
    unfold findUnique
    rw [List.foldlM_cons, r.find_inner he (hx x (by simp))]
    rfl

theorem Reached.findUnique_root {c : Pt K d} {R : K} {T : TPTree K d} (r : Reached c R T 0) (fuel : ℕ) :
    ∀ (xs : List (Pt K d)), xs ≠ [] → T.findUnique (fuel + 1) xs = .ok ([0], [xs.length]) := by
  have step : ∀ (xs : List (Pt K d)) (k : ℕ),
      xs.foldlM (fun (acc : List ℕ × List ℕ) x => do
        let p ← T.find x (fuel + 1) none
        if p ∈ acc.1 then return (acc.1, acc.2.modify (acc.1.idxOf p) (· + 1))
        else return (acc.1 ++ [p], acc.2 ++ [1])) ([0], [k]) = Except.ok (ε := PyErr) ([0], [k + xs.length]) := by
    intro xs
    induction xs with
    | nil => intro k; rfl
    | cons x xs ih =>
      intro k
      rw [List.foldlM_cons]
      simp only [r.find_root x fuel none, bind, Except.bind, List.mem_singleton, if_true, pure, Except.pure]
      have := ih (k + 1)
      simp only [bind, Except.bind, pure, Except.pure] at this
      simp only [List.idxOf_cons_self, List.modify_zero_cons, this, List.length_cons]
      congr 3
      omega
  intro xs hne
  cases xs with
  | nil => exact absurd rfl hne
  | cons x xs =>
    unfold findUnique
    rw [List.foldlM_cons]
    have := step xs 1
    simp only [bind, Except.bind, pure, Except.pure] at this
    simp only [r.find_root x fuel none, bind, Except.bind, pure, Except.pure, List.not_mem_nil, if_false,
      List.nil_append, this, List.length_cons]
    congr 3
    omega

theorem findUnique_zero {T : TPTree K d} {xs : List (Pt K d)} (hne : xs ≠ []) :
    T.findUnique 0 xs = .error .runtime := by
  cases xs with
  | nil => exact absurd rfl hne
  | cons x xs => rfl

/-- Expanding the only leaf. -/
theorem Reached.expandNodes_root {c : Pt K d} {R : K} {T T' : TPTree K d} (r : Reached c R T 0) {ess : Option K}
    {nMin maxParts : ℕ} {out : List ℕ} (h : expandNodes ess nMin maxParts T [0] [] = .ok (T', out)) :
    (T' = T ∧ out = [0]) ∨
    ∃ n, T.nodes[0]? = some n ∧ shouldExpand n ess nMin = .ok true ∧ T' = (insertChildren T 0 n).1 ∧
      out = List.range' 1 (2 ^ d) ∧ Reached c R T' 1 := by
  simp only [expandNodes] at h
  cases hx : T.expand 0 ess nMin with
  | error => simp [hx] at h
  | ok o =>
    obtain ⟨T1, o⟩ := o
    rw [hx] at h
    have r1 := r.expand hx
    rcases expand_cases hx with ⟨rfl, rfl, _⟩ | ⟨n, hn, hlf, hs, rfl, rfl⟩
    · simp only [List.nil_append, Except.ok.injEq, Prod.mk.injEq] at h
      exact Or.inl ⟨h.1.symm, h.2.symm⟩
    · have hN := r.nNodes
      simp only [Nat.zero_mul, Nat.add_zero] at hN
      right
      refine ⟨n, hn, hs, ?_⟩
      have : (Except.ok ((insertChildren T 0 n).1, List.range' 1 (2 ^ d)) : Except PyErr (TPTree K d × List ℕ))
          = .ok (T', out) := by
        rw [← h, hN]
        simp
      simp only [Except.ok.injEq, Prod.mk.injEq] at this
      obtain ⟨rfl, rfl⟩ := this
      exact ⟨rfl, rfl, by simpa using r1⟩

theorem getSamples_leaves {T : TPTree K d} (I : WF T) {t : K} (ht : 1 < t) {o : List (Pt K d) × List (XF K)}
    (h : T.getSamples (some t) = .ok o) : o.1.length = T.leaves.length ∧ o.2.length = T.leaves.length := by
  unfold getSamples at h
  simp only [ht, if_true, Except.ok.injEq] at h
  subst h
  have len : ∀ {α : Type _} [Inhabited α] (l : List α), l.length = T.nodes.length →
      (maskSelect T.leavesIdx l).length = T.leaves.length := by
    intro α _ l hl
    have := (I.maskSelect_perm l hl (fun p => l[p]!) (by
      intro p hp
      have hlt : p < l.length := by rw [hl]; exact I.leaf_lt hp
      rw [List.getElem?_eq_getElem hlt]
      simp [hlt])).length_eq
    simpa using this
  haveI : Inhabited (XF K) := ⟨XF.nan⟩
  haveI : Inhabited (Pt K d) := ⟨fun _ => 0⟩
  exact ⟨len _ I.lenS, len _ I.lenW⟩

end TPTree

open TPTree

theorem boxesSample_length {model : List (Pt K d × K) × List (XF K)} {bern : ℕ → ℕ → K → Bool} {u : ℕ → Pt K d} {n : ℕ}
    {xs : List (Pt K d)} (h : boxesSample model bern u n = .ok xs) : xs.length = n := by
  unfold boxesSample mixtureSample at h
  split at h
  · split_ifs at h with hn
    simp only [Except.ok.injEq] at h
    rw [← h, hn]; rfl
  · have key : ∀ {α : Type} {β : Type _} (f : α → Except PyErr β) (l : List α) (out : List β),
        l.mapM f = .ok out → out.length = l.length := by
      intro α β f l
      induction l with
      | nil => intro out h; simp only [List.mapM_nil, pure, Except.pure, Except.ok.injEq] at h; simp [← h]
      | cons a l ih =>
        intro out h
        simp only [List.mapM_cons, bind, Except.bind] at h
        cases ha : f a with
        | error => simp [ha] at h
        | ok b =>
          rw [ha] at h
          cases hl : l.mapM f with
          | error => simp [hl] at h
          | ok bs =>
            simp only [hl, pure, Except.pure, Except.ok.injEq] at h
            rw [← h]
            simp [ih bs hl]
    have := key _ _ _ h
    simpa using this

theorem clipPt_mem {dmin dmax : Pt K d} (hlt : ∀ i, dmin i < dmax i) {R : K} (hR : ∀ i, (dmax i - dmin i) / 2 ≤ R)
    (x : Pt K d) (i : Fin d) :
    (dmin i + dmax i) / 2 - R ≤ clipPt dmin dmax x i ∧ clipPt dmin dmax x i ≤ (dmin i + dmax i) / 2 + R := by
  have h1 : dmin i ≤ clipPt dmin dmax x i := le_min (le_max_right _ _) (hlt i).le
  have h2 : clipPt dmin dmax x i ≤ dmax i := min_le_right _ _
  have h3 := hR i
  constructor <;> linarith

namespace TPSampler

theorem visitMix_same {target : Pt K d → XF K} {it : TPMixIter K d} {S S' : TPSampler K d} {p : ℕ}
    (h : visitMix target it S p = .ok S') : Same S.T S'.T ∧ S'.model = S.model := by
  unfold visitMix at h
  simp only [bind, Except.bind, pure, Except.pure] at h
  split at h
  · cases h
  split at h
  · cases h
  rename_i T1 h1
  split at h
  · cases h
  split at h
  · cases h
  rename_i T2 h2
  simp only [Except.ok.injEq] at h
  rw [← h]
  exact ⟨(sampleNode_same h1).trans (weighNode_same h2), rfl⟩

theorem visitsMix_same {target : Pt K d → XF K} {it : TPMixIter K d} : ∀ (ps : List ℕ) {S S' : TPSampler K d},
    ps.foldlM (visitMix target it) S = .ok S' → Same S.T S'.T ∧ S'.model = S.model
  | [], S, S', h => by
    simp only [List.foldlM_nil, pure, Except.pure, Except.ok.injEq] at h
    rw [← h]; exact ⟨Same.refl _, rfl⟩
  | p :: ps, S, S', h => by
    simp only [List.foldlM_cons, bind, Except.bind] at h
    cases h1 : visitMix target it S p with
    | error => simp [h1] at h
    | ok S1 =>
      rw [h1] at h
      obtain ⟨a, b⟩ := visitMix_same h1
      obtain ⟨a', b'⟩ := visitsMix_same ps h
      exact ⟨a.trans a', b'.trans b⟩

theorem updateModel_same {S S' : TPSampler K d} (I : WF S.T) (h : S.updateModel = .ok S') :
    Same S.T S'.T ∧ S'.T = S.T.selfNormalize := by
  unfold updateModel at h
  cases hs : setWeights ((maskSelect S.T.leavesIdx S.T.centers).zip (maskSelect S.T.leavesIdx S.T.radii)).length
      (maskSelect S.T.leavesIdx S.T.weights) with
  | error => simp only [hs, Except.map] at h; cases h
  | ok st =>
    simp only [hs, Except.map, Except.ok.injEq] at h
    rw [← h]
    exact ⟨selfNormalize_same I, rfl⟩

theorem initRootMix_same {target : Pt K d → XF K} {u : Pt K d} {S S' : TPSampler K d} (I : WF S.T)
    (h : initRootMix target u S = .ok S') : Same S.T S'.T := by
  unfold initRootMix at h
  split at h
  · cases h
  · split_ifs at h
    · simp only [bind, Except.bind] at h
      split at h
      · cases h
      rename_i T1 h1
      split at h
      · cases h
      rename_i T2 h2
      have s := (sampleNode_same h1).trans (weighNode_same h2)
      exact s.trans (updateModel_same (S := { S with
        T := T2, numQ := S.numQ + 1, numPi := S.numPi + 1, numQEvals := S.numQEvals + 1 }) (s.inv I) h).1
    · simp only [Except.ok.injEq] at h
      rw [← h]; exact Same.refl _

/-- The structure of the tree between iterations and calls: the root has been expanded at most once. -/
def MixTree (dmin dmax : Pt K d) (T : TPTree K d) (e : ℕ) : Prop :=
  ∃ R : K, (∀ i, (dmax i - dmin i) / 2 ≤ R) ∧ Reached (fun i => (dmin i + dmax i) / 2) R T e

theorem ceilDiv_pos {n h : ℕ} (hn : h < n) : 0 < (n - h + (2 ^ d - 1)) / 2 ^ d := by
  have hp : 0 < 2 ^ d := by positivity
  apply Nat.div_pos _ hp
  omega

/-- An iteration that does not raise starts from a tree that was never expanded, and expands it at most once. -/
theorem iterateMix_tree {cfg : TPConfig K} {dmin dmax : Pt K d} (hlt : ∀ i, dmin i < dmax i) {target : Pt K d → XF K}
    {fuel nS hv : ℕ} (hn : hv < nS) {it : TPMixIter K d} {S S' : TPSampler K d} {e : ℕ} (m : MixTree dmin dmax S.T e)
    (h : iterateMix cfg dmin dmax target fuel nS hv it S = .ok S') :
    e = 0 ∧ ∃ e', e' ≤ 1 ∧ MixTree dmin dmax S'.T e' := by
  obtain ⟨R, hR, r⟩ := m
  unfold iterateMix at h
  simp only [bind, Except.bind, pure, Except.pure] at h
  split at h
  · cases h
  rename_i pts hpts
  have hlen := boxesSample_length hpts
  have hpne : pts.map (clipPt dmin dmax) ≠ [] := by
    have := ceilDiv_pos (d := d) hn
    rw [← hlen] at this
    intro h0
    rw [List.map_eq_nil_iff] at h0
    rw [h0] at this
    simp at this
  have hin : ∀ x ∈ pts.map (clipPt dmin dmax), ∀ i, (dmin i + dmax i) / 2 - R ≤ x i ∧ x i ≤ (dmin i + dmax i) / 2 + R := by
    intro x hx
    obtain ⟨y, _, rfl⟩ := List.mem_map.1 hx
    exact clipPt_mem hlt hR y
  have he : e = 0 := by
    by_contra he
    rw [r.findUnique_inner (Nat.pos_of_ne_zero he) hpne hin fuel] at h
    simp at h
  subst he
  refine ⟨rfl, ?_⟩
  cases fuel with
  | zero =>
    rw [findUnique_zero hpne] at h
    simp at h
  | succ fuel =>
    rw [r.findUnique_root fuel _ hpne] at h
    simp only at h
    split at h
    · cases h
    rename_i o hx
    obtain ⟨T1, new⟩ := o
    have hT1 : ∃ e', e' ≤ 1 ∧ Reached (fun i => (dmin i + dmax i) / 2) R T1 e' := by
      rcases r.expandNodes_root hx with ⟨rfl, _⟩ | ⟨_, _, _, _, _, r'⟩
      · exact ⟨0, by omega, r⟩
      · exact ⟨1, le_refl _, r'⟩
    obtain ⟨e', he', r'⟩ := hT1
    split at h
    · cases h
    rename_i S2 h2
    have s2 := (visitsMix_same _ h2).1
    have r2 := r'.same s2
    refine ⟨e', he', R, hR, ?_⟩
    split_ifs at h
    · split at h
      · cases h
      rename_i T3 h3
      simp only [Except.ok.injEq] at h
      rw [← h]
      exact r2.same (resample_same r2.wf h3)
    · simp only [Except.ok.injEq] at h
      rw [← h]
      exact r2

theorem loopMix_tree {cfg : TPConfig K} {dmin dmax : Pt K d} (hlt : ∀ i, dmin i < dmax i) {target : Pt K d → XF K}
    {fuel nS : ℕ} : ∀ (its : List (TPMixIter K d)) (late : Bool) {S S' : TPSampler K d} {b : Bool} {e : ℕ}, e ≤ 1 →
    MixTree dmin dmax S.T e → loopMix cfg dmin dmax target fuel nS late its S = .ok (S', b) →
    (∃ e', e' ≤ 1 ∧ MixTree dmin dmax S'.T e') ∧
    (b = true → ∃ o, S'.T.getSamples cfg.essTarget = .ok o ∧
      (nS ≤ o.2.length ∨ late = true ∨ ∃ it ∈ its, it.late = true))
  | [], late, S, S', b, e, he, m, h => by
    simp only [loopMix, bind, Except.bind, pure, Except.pure] at h
    split at h
    · cases h
    rename_i o ho
    simp only [Except.ok.injEq, Prod.mk.injEq] at h
    obtain ⟨rfl, rfl⟩ := h
    refine ⟨⟨e, he, m⟩, fun hb => ⟨o, ho, ?_⟩⟩
    have hb' := of_decide_eq_true hb
    by_cases h1 : o.2.length < nS
    · right; left
      cases late
      · exact absurd ⟨h1, rfl⟩ hb'
      · rfl
    · left; omega
  | it :: its, late, S, S', b, e, he, m, h => by
    simp only [loopMix, bind, Except.bind, pure, Except.pure] at h
    split at h
    · cases h
    rename_i o ho
    split_ifs at h with hc
    · split at h
      · cases h
      rename_i S1 h1
      obtain ⟨_, e1, he1, m1⟩ := iterateMix_tree hlt hc.1 m h1
      obtain ⟨a, b'⟩ := loopMix_tree hlt its it.late he1 m1 h
      refine ⟨a, fun hb => ?_⟩
      obtain ⟨o', ho', hx⟩ := b' hb
      refine ⟨o', ho', ?_⟩
      rcases hx with hx | hx | ⟨i, hi, hx⟩
      · exact Or.inl hx
      · exact Or.inr (Or.inr ⟨it, by simp, hx⟩)
      · exact Or.inr (Or.inr ⟨i, by simp [hi], hx⟩)
    · simp only [Except.ok.injEq, Prod.mk.injEq] at h
      obtain ⟨rfl, rfl⟩ := h
      refine ⟨⟨e, he, m⟩, fun _ => ⟨o, ho, ?_⟩⟩
      by_cases h1 : o.2.length < nS
      · right; left
        cases late
        · exact absurd ⟨h1, rfl⟩ hc
        · rfl
      · left; omega

theorem callMix_tree {cfg : TPConfig K} {dmin dmax : Pt K d} (hlt : ∀ i, dmin i < dmax i) {target : Pt K d → XF K}
    {fuel : ℕ} {c : TPMixCall K d} {S S' : TPSampler K d} {out : Option (List (Pt K d) × List (XF K))} {e : ℕ}
    (he : e ≤ 1) (m : MixTree dmin dmax S.T e)
    (h : importanceSampleMix cfg dmin dmax target fuel c S = .ok (S', out)) :
    (∃ e', e' ≤ 1 ∧ MixTree dmin dmax S'.T e') ∧
    (∀ o, out = some o → S'.T.getSamples cfg.essTarget = .ok o ∧
      ∃ (S1 : TPSampler K d) (o1 : List (Pt K d) × List (XF K)), WF S1.T ∧ S'.T = S1.T.selfNormalize ∧ S1.T.getSamples cfg.essTarget = .ok o1 ∧
      (c.n ≤ o1.2.length ∨ ∃ it ∈ c.its, it.late = true)) := by
  obtain ⟨R, hR, r⟩ := m
  unfold importanceSampleMix at h
  simp only [bind, Except.bind, pure, Except.pure] at h
  split at h
  · cases h
  rename_i S0 h0
  have m0 : MixTree dmin dmax S0.T e := ⟨R, hR, r.same (initRootMix_same r.wf h0)⟩
  split at h
  · cases h
  rename_i o hl
  obtain ⟨S1, fin⟩ := o
  obtain ⟨⟨e1, he1, R1, hR1, r1⟩, hx⟩ := loopMix_tree hlt _ _ he m0 hl
  cases fin with
  | false =>
    simp only [Bool.false_eq_true, if_false, Except.ok.injEq, Prod.mk.injEq] at h
    obtain ⟨rfl, rfl⟩ := h
    exact ⟨⟨e1, he1, R1, hR1, r1⟩, by simp⟩
  | true =>
    simp only [if_true] at h
    split at h
    · cases h
    rename_i S2 h2
    split at h
    · cases h
    rename_i out' ho
    simp only [Except.ok.injEq, Prod.mk.injEq] at h
    obtain ⟨rfl, rfl⟩ := h
    obtain ⟨sm, hT⟩ := updateModel_same r1.wf h2
    refine ⟨⟨e1, he1, R1, hR1, r1.same sm⟩, ?_⟩
    rintro o ho'
    simp only [Option.some.injEq] at ho'
    subst ho'
    obtain ⟨o1, ho1, hx1⟩ := hx rfl
    refine ⟨ho, S1, o1, r1.wf, hT, ho1, ?_⟩
    simpa using hx1

theorem callsMix_tree {cfg : TPConfig K} {dmin dmax : Pt K d} (hlt : ∀ i, dmin i < dmax i) {target : Pt K d → XF K}
    {fuel : ℕ} : ∀ (cs : List (TPMixCall K d)) {S S' : TPSampler K d} {e : ℕ}, e ≤ 1 → MixTree dmin dmax S.T e →
    S.callsMix cfg dmin dmax target fuel cs = .ok S' → ∃ e', e' ≤ 1 ∧ MixTree dmin dmax S'.T e'
  | [], S, S', e, he, m, h => by
    simp only [callsMix, List.foldlM_nil, pure, Except.pure, Except.ok.injEq] at h
    rw [← h]; exact ⟨e, he, m⟩
  | c :: cs, S, S', e, he, m, h => by
    simp only [callsMix, List.foldlM_cons, bind, Except.bind] at h
    cases h1 : importanceSampleMix cfg dmin dmax target fuel c S with
    | error => simp [h1, Except.map] at h
    | ok o =>
      obtain ⟨S1, out⟩ := o
      simp only [h1, Except.map] at h
      obtain ⟨⟨e1, he1, m1⟩, _⟩ := callMix_tree hlt he m h1
      exact callsMix_tree hlt cs he1 m1 h

theorem new_mixTree {dmin dmax : Pt K d} {S : TPSampler K d} (h : new dmin dmax = .ok S) :
    MixTree dmin dmax S.T 0 := by
  unfold new at h
  cases h0 : TPTree.init dmin dmax with
  | error e => simp [h0, Except.map] at h
  | ok T =>
    rw [h0] at h
    simp only [Except.map, Except.ok.injEq] at h
    obtain ⟨R, _, hR, r⟩ := reached_init h0
    subst h
    exact ⟨R, hR, r⟩

end TPSampler
end Verif
