import Verif.Spec.AcceptRate
import Verif.Props.TPMixture

/-!
# Property C123 for the tree pyramid, with the schemes "simple" and "mixture"
-/

set_option linter.unusedSectionVars false
set_option autoImplicit false

namespace Verif

variable {K : Type*} [Field K] [LinearOrder K] [IsStrictOrderedRing K] {d : ℕ}

theorem sum_modify_le {α : Type*} (g : α → ℕ) (f : α → α) (c : ℕ) (h : ∀ a, g (f a) ≤ g a + c) : ∀ (l : List α) (p : ℕ),
    ((l.modify p f).map g).sum ≤ (l.map g).sum + c
  | [], p => by cases p <;> simp
  | a :: l, 0 => by
    have := h a
    simp
    omega
  | a :: l, p + 1 => by
    have := sum_modify_le g f c h l p
    simp
    omega

theorem sum_set_le {α : Type*} (g : α → ℕ) (b : α) : ∀ (l : List α) (p : ℕ) (a : α), l[p]? = some a → g b ≤ g a →
    ((l.set p b).map g).sum ≤ (l.map g).sum
  | [], p, a, h, _ => by simp at h
  | x :: l, 0, a, h, hb => by
    simp at h
    subst h
    simpa using hb
  | x :: l, p + 1, a, h, hb => by
    have := sum_set_le g b l p a (by simpa using h) hb
    simpa using this

theorem count_set_false_le : ∀ (l : List Bool) (p : ℕ), (l.set p false).count true ≤ l.count true
  | [], p => by simp
  | b :: l, 0 => by simp [List.count_cons]
  | b :: l, p + 1 => by
    have := count_set_false_le l p
    simp [List.count_cons]
    omega

theorem maskSelect_length_le {α : Type*} : ∀ (m : List Bool) (l : List α), (maskSelect m l).length ≤ m.count true
  | [], l => by simp [maskSelect]
  | b :: m, [] => by simp [maskSelect]
  | b :: m, a :: l => by
    have := maskSelect_length_le m l
    cases b <;> simp [maskSelect] <;> omega

theorem maskSelect_length_le' {α : Type*} : ∀ (m : List Bool) (l : List α), (maskSelect m l).length ≤ l.length
  | [], l => by simp [maskSelect]
  | b :: m, [] => by simp [maskSelect]
  | b :: m, a :: l => by
    have := maskSelect_length_le' m l
    cases b <;> simp [maskSelect] <;> omega

namespace TPTree

/-- Number of weights in the history of a node. -/
def histLen (n : TPNode K d) : ℕ := (n.weightHist.getD []).length

/-- Number of weights in all histories. -/
def held (T : TPTree K d) : ℕ := (T.nodes.map histLen).sum

/-- Number of positions marked as leaves. -/
def marked (T : TPTree K d) : ℕ := T.leavesIdx.count true

theorem sampleNode_total {T T' : TPTree K d} {p : ℕ} {x : Pt K d} (h : T.sampleNode p x = .ok T') :
    T'.held ≤ T.held ∧ T'.marked = T.marked := by
  unfold sampleNode at h
  split at h
  · cases h
  · split at h
    · cases h
      exact ⟨sum_modify_le histLen (fun n => n.sample x) 0 (fun _ => le_rfl) _ _, rfl⟩
    · cases h

theorem weighNode_total {T T' : TPTree K d} {p : ℕ} {t q : Pt K d → XF K} (h : T.weighNode p t q = .ok T') :
    T'.held ≤ T.held + 1 ∧ T'.marked = T.marked := by
  unfold weighNode at h
  split at h
  · cases h
  · split at h
    · cases h
      exact ⟨sum_modify_le histLen _ 1 (fun n => by simp [histLen, TPNode.weigh]) _ _, rfl⟩
    · cases h

theorem selfNormalize_total (T : TPTree K d) : T.selfNormalize.held = T.held ∧ T.selfNormalize.marked = T.marked := by
  unfold selfNormalize
  simp only
  split_ifs <;> exact ⟨rfl, rfl⟩

theorem expand_total {T T' : TPTree K d} {p : ℕ} {e : Option K} {m : ℕ} {r : Option (List ℕ)}
    (h : T.expand p e m = .ok (T', r)) : T'.held ≤ T.held ∧ T'.marked ≤ T.marked + (r.getD []).length := by
  unfold expand at h
  split at h
  · cases h
  · rename_i n hn
    split at h
    · cases h
    · split at h
      · cases h
      · cases h
        exact ⟨le_rfl, by simp⟩
      · cases h
        have hnew : ∀ (j : ℤ) (c : TPNode K d), c ∈ takeSlot j (newNodes T n) → histLen c = 0 := by
          have hb : ∀ c ∈ newNodes T n, histLen c = 0 := by
            intro c hc
            unfold newNodes at hc
            obtain ⟨_, _, rfl⟩ := List.mem_map.1 hc
            rfl
          intro j c hc
          cases hl : newNodes T n with
          | nil => rw [hl] at hc; simp [takeSlot] at hc
          | cons a l =>
            rw [hl] at hc hb
            simp only [takeSlot, List.mem_cons] at hc
            rcases hc with rfl | hc
            · exact hb a (by simp)
            · exact hb c (by simp [hc])
        constructor
        · unfold held
          simp only
          refine (sum_set_le histLen _ _ p n ?_ (by simp [histLen])).trans ?_
          · rw [List.getElem?_append_left (List.getElem?_eq_some_iff.1 hn).1]
            exact hn
          · rw [List.map_append, List.sum_append, List.sum_eq_zero (l := List.map histLen (takeSlot _ _)), add_zero]
            intro x hx
            obtain ⟨c, hc, rfl⟩ := List.mem_map.1 hx
            exact hnew _ c hc
        · unfold marked
          simp only [Option.getD_some, List.length_range']
          refine (count_set_false_le _ _).trans ?_
          rw [List.count_append, List.count_replicate_self]

theorem expandNodes_total {e : Option K} {m k : ℕ} : ∀ (ps : List ℕ) (T : TPTree K d) (acc : List ℕ) (T' : TPTree K d)
    (out : List ℕ), expandNodes e m k T ps acc = .ok (T', out) →
    T'.held ≤ T.held ∧ T'.marked + acc.length ≤ T.marked + out.length
  | [], T, acc, T', out, h => by
    cases h
    exact ⟨le_rfl, le_rfl⟩
  | p :: ps, T, acc, T', out, h => by
    unfold expandNodes at h
    cases hx : expand T p e m with
    | error err => rw [hx] at h; cases h
    | ok r =>
      obtain ⟨T1, r⟩ := r
      have h1 := expand_total hx
      rw [hx] at h
      cases r with
      | none =>
        have h2 := expandNodes_total ps T1 _ T' out h
        simp at h1 h2
        exact ⟨h2.1.trans h1.1, by omega⟩
      | some refs =>
        simp only at h
        split_ifs at h
        · cases h
          simp at h1 ⊢
          exact ⟨h1.1, by omega⟩
        · have h2 := expandNodes_total ps T1 _ T' out h
          simp at h1 h2
          exact ⟨h2.1.trans h1.1, by omega⟩

theorem refreshLeaf_total {T T' : TPTree K d} {p : ℕ} (h : T.refreshLeaf p = .ok T') :
    T'.held ≤ T.held ∧ T'.marked = T.marked := by
  unfold refreshLeaf at h
  split at h
  · cases h
  · rename_i n hn
    split at h
    · rename_i w x _ _
      split at h
      · rename_i wh ch hw hc
        cases h
        refine ⟨sum_set_le histLen _ _ p n hn ?_, rfl⟩
        cases hh : n.weightHist with
        | none => rw [hh] at hw; simp at hw
        | some l =>
          rw [hh] at hw
          simp only [Option.bind_some, setLast] at hw
          split_ifs at hw with hl
          cases hw
          have := List.length_pos_iff.2 hl
          simp [histLen, hh]
          omega
      · cases h
    · cases h

theorem resample_total {T T' : TPTree K d} {t : Pt K d → XF K} {u : ℕ → Pt K d} (h : T.resample t u = .ok T') :
    T'.held ≤ T.held ∧ T'.marked = T.marked := by
  have key : ∀ (ps : List ℕ) (T T' : TPTree K d), ps.foldlM refreshLeaf T = .ok T' → T'.held ≤ T.held ∧ T'.marked = T.marked := by
    intro ps
    induction ps with
    | nil => intro T T' h; cases h; exact ⟨le_rfl, rfl⟩
    | cons p ps ih =>
      intro T T' h
      rw [List.foldlM_cons] at h
      cases hx : refreshLeaf T p with
      | error e => rw [hx] at h; cases h
      | ok T1 =>
        rw [hx] at h
        have h1 := refreshLeaf_total hx
        have h2 := ih T1 T' h
        exact ⟨h2.1.trans h1.1, h2.2.trans h1.2⟩
  have h1 := key _ _ _ h
  have h2 := selfNormalize_total (resampleArrays T t u)
  exact ⟨h1.1.trans h2.1.le, h1.2.trans h2.2⟩

/-- The samples found are at most the weights held by the tree (`ess_target` at most 1), or at most the leaves. -/
theorem getSamples_le {T : TPTree K d} (I : WF T) {e : Option K} {o : List (Pt K d) × List (XF K)}
    (h : T.getSamples e = .ok o) : o.2.length ≤ T.held ∨ o.2.length ≤ T.marked := by
  unfold getSamples at h
  split at h
  · cases h
  · split_ifs at h
    · cases h
      exact Or.inr (maskSelect_length_le _ _)
    · left
      split at h
      · cases h
      · rename_i hs hm
        simp only at h
        split at h
        · cases h
        · rename_i s w hf
          cases h
          refine (maskSelect_length_le' _ _).trans ?_
          have hlen : ∀ (l : List ((List (Pt K d) × List (XF K)) × ℕ)) (a b : List (Pt K d) × List (XF K)),
              l.foldlM writeStep a = .ok b → b.2.length = a.2.length := by
            intro l
            induction l with
            | nil => intro a b h; cases h; rfl
            | cons x l ih =>
              intro a b h
              rw [List.foldlM_cons] at h
              cases hx : writeStep a x with
              | error e => rw [hx] at h; cases h
              | ok c =>
                rw [hx] at h
                rw [ih c b h]
                unfold writeStep writeSlice at hx
                split_ifs at hx <;> simp [bind, Except.bind, pure, Except.pure] at hx
                rw [← hx]
                simp
                omega
          have h1 := hlen _ _ _ hf
          simp only [List.length_replicate] at h1
          rw [h1]
          -- the histories are those of the leaves, which are different nodes
          have h2 : ∀ (l : List ℕ) (hs : List (List (Pt K d) × List (XF K))), l.mapM (fun p => (T.nodes[p]?).bind fun n =>
              (n.coordsHist.bind fun ch => n.weightHist.map fun wh => (ch, wh))) = some hs →
              (hs.map fun h => h.2.length).sum = (l.map fun p => ((T.nodes[p]?).map histLen).getD 0).sum := by
            intro l
            induction l with
            | nil => intro hs h; simp at h; subst h; rfl
            | cons p l ih =>
              intro hs h
              rw [List.mapM_cons] at h
              cases hn : T.nodes[p]? with
              | none => rw [hn] at h; simp at h
              | some n =>
                cases hc : n.coordsHist with
                | none => rw [hn] at h; simp [hc] at h
                | some ch =>
                  cases hw : n.weightHist with
                  | none => rw [hn] at h; simp [hc, hw] at h
                  | some wh =>
                    rw [hn] at h
                    simp only [Option.bind_some, hc, hw, Option.map_some, bind, pure] at h
                    obtain ⟨hs', h', h3⟩ := Option.bind_eq_some_iff.1 h
                    obtain rfl := Option.some.inj h3
                    simp [ih hs' h', hn, histLen, hw]
          rw [h2 _ _ hm]
          have h3 : (T.leaves.map fun p => ((T.nodes[p]?).map histLen).getD 0).sum ≤
              ((List.range T.nodes.length).map fun p => ((T.nodes[p]?).map histLen).getD 0).sum := by
            rw [← List.sum_toFinset _ I.leavesNodup, ← List.sum_toFinset _ List.nodup_range]
            refine Finset.sum_le_sum_of_subset ?_
            intro p hp
            simp only [List.mem_toFinset, List.mem_range] at hp ⊢
            exact I.leaf_lt hp
          refine h3.trans (le_of_eq ?_)
          unfold held
          congr 1
          apply List.ext_getElem
          · simp
          · intro i h1 h2
            simp at h1 h2
            simp [h2]

end TPTree

namespace TPSampler
open TPTree

/-- The counter covers the weights held and the leaves, except that a new sampler has a leaf and nothing drawn. -/
def Covered (S : TPSampler K d) : Prop := S.T.held ≤ S.numQ ∧ S.T.marked ≤ S.numQ

/-- A sampler before its first call. -/
def Untouched (S : TPSampler K d) : Prop :=
  S.T.held = 0 ∧ S.T.marked = 1 ∧ ∃ root, S.T.nodes[0]? = some root ∧ root.histDeleted = false ∧ root.weightHist = none

theorem new_untouched {dmin dmax : Pt K d} {S : TPSampler K d} (h : new dmin dmax = .ok S) : Untouched S := by
  unfold new at h
  cases h0 : TPTree.init dmin dmax with
  | error e => simp [h0, Except.map] at h
  | ok T =>
    rw [h0] at h
    simp only [Except.map, Except.ok.injEq] at h
    obtain ⟨R', _, _, hT⟩ := init_eq h0
    subst h
    rw [hT]
    refine ⟨?_, ?_, _, rfl, rfl, rfl⟩
    · simp [held, histLen, TPNode.new]
    · simp [marked]

theorem updateModel_covered {S S' : TPSampler K d} (h : updateModel S = .ok S') (hc : Covered S) : Covered S' := by
  unfold updateModel at h
  simp only at h
  cases hw : setWeights ((maskSelect S.T.leavesIdx S.T.centers).zip (maskSelect S.T.leavesIdx S.T.radii)).length
      (maskSelect S.T.leavesIdx S.T.weights) with
  | error e => rw [hw] at h; cases h
  | ok w =>
    rw [hw] at h
    cases h
    have := selfNormalize_total S.T
    exact ⟨this.1.le.trans hc.1, this.2.le.trans hc.2⟩

theorem root_covered {target : Pt K d → XF K} {S : TPSampler K d} (h : Untouched S ∨ Covered S) {x : Pt K d} {q : Pt K d → XF K}
    {T1 T2 : TPTree K d} (h1 : S.T.sampleNode 0 x = .ok T1) (h2 : T1.weighNode 0 target q = .ok T2) :
    T2.held ≤ S.numQ + 1 ∧ T2.marked ≤ S.numQ + 1 := by
  have a := sampleNode_total h1
  have b := weighNode_total h2
  rcases h with ⟨u1, u2, -⟩ | ⟨u1, u2⟩ <;> omega

theorem visits_covered (f : TPSampler K d → ℕ → Except PyErr (TPSampler K d))
    (hf : ∀ S p S', f S p = .ok S' → S'.T.held ≤ S.T.held + 1 ∧ S'.T.marked = S.T.marked ∧ S'.numQ = S.numQ + 1) :
    ∀ (l : List ℕ) (S S' : TPSampler K d), l.foldlM f S = .ok S' →
      S'.T.held ≤ S.T.held + l.length ∧ S'.T.marked = S.T.marked ∧ S'.numQ = S.numQ + l.length
  | [], S, S', h => by cases h; simp
  | p :: l, S, S', h => by
    rw [List.foldlM_cons] at h
    cases hx : f S p with
    | error e => rw [hx] at h; cases h
    | ok S1 =>
      rw [hx] at h
      have h1 := hf S p S1 hx
      have h2 := visits_covered f hf l S1 S' h
      simp only [List.length_cons]
      omega

theorem visit_counts {target : Pt K d → XF K} {draw : ℕ → Pt K d} (S : TPSampler K d) (p : ℕ) (S' : TPSampler K d)
    (h : visit target draw S p = .ok S') :
    S'.T.held ≤ S.T.held + 1 ∧ S'.T.marked = S.T.marked ∧ S'.numQ = S.numQ + 1 := by
  unfold visit at h
  split at h
  · cases h
  · rename_i n _
    cases h1 : S.T.sampleNode p (n.sampler.sample1 (draw p)) with
    | error e => rw [h1] at h; cases h
    | ok T1 =>
      cases h2 : T1.weighNode p target n.sampler.prob1 with
      | error e => simp only [h1, h2, bind, Except.bind] at h; cases h
      | ok T2 =>
        simp only [h1, h2, bind, Except.bind, pure, Except.pure] at h
        cases h
        have a := sampleNode_total h1
        have b := weighNode_total h2
        exact ⟨by simp only; omega, b.2.trans a.2, rfl⟩

theorem visitMix_counts {target : Pt K d → XF K} {it : TPMixIter K d} (S : TPSampler K d) (p : ℕ) (S' : TPSampler K d)
    (h : visitMix target it S p = .ok S') :
    S'.T.held ≤ S.T.held + 1 ∧ S'.T.marked = S.T.marked ∧ S'.numQ = S.numQ + 1 := by
  unfold visitMix at h
  cases h0 : boxesSample S.model (fun _ => it.comp p) (fun _ => it.draw p) 1 with
  | error e => rw [h0] at h; cases h
  | ok xs =>
    cases h1 : S.T.sampleNode p (xs.headD fun _ => 0) with
    | error e => simp only [h0, h1, bind, Except.bind] at h; cases h
    | ok T1 =>
      cases hq : T1.prob1 (xs.headD fun _ => 0) with
      | error e => simp only [h0, h1, hq, bind, Except.bind] at h; cases h
      | ok q =>
        cases h2 : T1.weighNode p target fun _ => q with
        | error e => simp only [h0, h1, hq, h2, bind, Except.bind] at h; cases h
        | ok T2 =>
          simp only [h0, h1, hq, h2, bind, Except.bind, pure, Except.pure] at h
          cases h
          have a := sampleNode_total h1
          have b := weighNode_total h2
          exact ⟨by simp only; omega, b.2.trans a.2, rfl⟩

/-- The part of an iteration after the choice of the nodes. -/
theorem finish_covered {target : Pt K d → XF K} {redraw : ℕ → Pt K d} {lr : Bool} {S2 S' : TPSampler K d} (hc : Covered S2)
    (h : (if lr then do
        let T3 ← S2.T.resample target redraw
        let n := S2.T.leaves.length
        return { S2 with T := T3, numQ := S2.numQ + n, numPi := S2.numPi + n, numQEvals := S2.numQEvals + n }
      else return S2 : Except PyErr (TPSampler K d)) = .ok S') : Covered S' := by
  split_ifs at h
  · cases hr : S2.T.resample target redraw with
    | error e => rw [hr] at h; cases h
    | ok T3 =>
      rw [hr] at h
      cases h
      have := resample_total hr
      exact ⟨by simp only; have := hc.1; omega, by simp only; have := hc.2; omega⟩
  · cases h
    exact hc

theorem iterate_covered {cfg : TPConfig K} {target : Pt K d → XF K} {it : TPIter K d} {S S' : TPSampler K d} (hc : Covered S)
    (h : iterate cfg target it S = .ok S') : Covered S' := by
  unfold iterate at h
  cases hx : expandNodes cfg.essTarget cfg.nMin cfg.parallel S.T (sortedLeaves S.T) [] with
  | error e => rw [hx] at h; cases h
  | ok r =>
    obtain ⟨T1, new⟩ := r
    cases hv : new.foldlM (visit target it.draw) { S with T := T1 } with
    | error e => simp only [hx, hv, bind, Except.bind] at h; cases h
    | ok S2 =>
      have a := expandNodes_total _ _ _ _ _ hx
      have b := visits_covered _ visit_counts _ _ _ hv
      simp only [List.length_nil] at a b
      have h2 : Covered S2 := ⟨by have := hc.1; omega, by have := hc.2; omega⟩
      refine finish_covered (target := target) (redraw := it.redraw) (lr := cfg.leafResampling) h2 ?_
      rw [← h]
      simp only [hx, hv, bind, Except.bind]

theorem iterateMix_covered {cfg : TPConfig K} {dmin dmax : Pt K d} {target : Pt K d → XF K} {fuel nS hv : ℕ}
    {it : TPMixIter K d} {S S' : TPSampler K d} (hc : Covered S)
    (h : iterateMix cfg dmin dmax target fuel nS hv it S = .ok S') : Covered S' := by
  unfold iterateMix at h
  simp only at h
  cases h0 : boxesSample S.model it.pick it.pickAt ((nS - hv + (2 ^ d - 1)) / 2 ^ d) with
  | error e => rw [h0] at h; cases h
  | ok pts =>
    cases hf : S.T.findUnique fuel (pts.map (clipPt dmin dmax)) with
    | error e => simp only [h0, hf, bind, Except.bind] at h; cases h
    | ok nn =>
      obtain ⟨nodes, cnt⟩ := nn
      cases hx : expandNodes cfg.essTarget cfg.nMin (nS - hv) S.T nodes [] with
      | error e => simp only [h0, hf, hx, bind, Except.bind] at h; cases h
      | ok r =>
        obtain ⟨T1, new⟩ := r
        cases hv' : new.foldlM (visitMix target it) { S with T := T1, numQ := S.numQ + (nS - hv + (2 ^ d - 1)) / 2 ^ d } with
        | error e => simp only [h0, hf, hx, hv', bind, Except.bind] at h; cases h
        | ok S2 =>
          have a := expandNodes_total _ _ _ _ _ hx
          have b := visits_covered _ visitMix_counts _ _ _ hv'
          simp only [List.length_nil] at a b
          have hk := Nat.zero_le ((nS - hv + (2 ^ d - 1)) / 2 ^ d)
          generalize (nS - hv + (2 ^ d - 1)) / 2 ^ d = k at b hk
          have h2 : Covered S2 := ⟨by have := hc.1; omega, by have := hc.2; omega⟩
          refine finish_covered (target := target) (redraw := it.redraw) (lr := cfg.leafResampling) h2 ?_
          rw [← h]
          simp only [h0, hf, hx, hv', bind, Except.bind]

theorem initRoot_covered {target : Pt K d → XF K} {u : Pt K d} {S S' : TPSampler K d} (hc : Untouched S ∨ Covered S)
    (h : initRoot target u S = .ok S') : Covered S' := by
  unfold initRoot at h
  split at h
  · cases h
  · rename_i root hroot
    split_ifs at h with hb
    · cases h1 : S.T.sampleNode 0 (root.sampler.sample1 u) with
      | error e => simp only [h1, bind, Except.bind] at h; cases h
      | ok T1 =>
        cases h2 : T1.weighNode 0 target root.sampler.prob1 with
        | error e => simp only [h1, h2, bind, Except.bind] at h; cases h
        | ok T2 =>
          simp only [h1, h2, bind, Except.bind] at h
          exact updateModel_covered h (root_covered hc h1 h2)
    · cases h
      rcases hc with ⟨-, -, r, hr, hr1, hr2⟩ | hc
      · rw [hroot] at hr
        cases hr
        exact absurd ⟨hr1, hr2⟩ hb
      · exact hc

theorem initRootMix_covered {target : Pt K d → XF K} {u : Pt K d} {S S' : TPSampler K d} (hc : Untouched S ∨ Covered S)
    (h : initRootMix target u S = .ok S') : Covered S' := by
  unfold initRootMix at h
  split at h
  · cases h
  · rename_i root hroot
    split_ifs at h with hb
    · cases h1 : S.T.sampleNode 0 (root.sampler.sample1 u) with
      | error e => simp only [h1, bind, Except.bind] at h; cases h
      | ok T1 =>
        cases h2 : T1.weighNode 0 target root.sampler.prob1 with
        | error e => simp only [h1, h2, bind, Except.bind] at h; cases h
        | ok T2 =>
          simp only [h1, h2, bind, Except.bind] at h
          exact updateModel_covered h (root_covered hc h1 h2)
    · cases h
      rcases hc with ⟨-, -, r, hr, hr1, hr2⟩ | hc
      · rw [hroot] at hr
        cases hr
        exact absurd ⟨hr1, hr2⟩ hb
      · exact hc

theorem loop_covered {cfg : TPConfig K} {target : Pt K d → XF K} {nS : ℕ} : ∀ (its : List (TPIter K d)) (late : Bool)
    (S : TPSampler K d) (r : TPSampler K d × Bool), Covered S → loop cfg target nS late its S = .ok r → Covered r.1
  | [], late, S, r, hc, h => by
    unfold loop at h
    cases hg : S.T.getSamples cfg.essTarget with
    | error e => rw [hg] at h; cases h
    | ok o => rw [hg] at h; cases h; exact hc
  | it :: its, late, S, r, hc, h => by
    unfold loop at h
    cases hg : S.T.getSamples cfg.essTarget with
    | error e => rw [hg] at h; cases h
    | ok o =>
      simp only [hg, bind, Except.bind] at h
      split_ifs at h
      · cases hi : iterate cfg target it S with
        | error e => rw [hi] at h; cases h
        | ok S1 =>
          rw [hi] at h
          exact loop_covered its it.late S1 r (iterate_covered hc hi) h
      · cases h
        exact hc

theorem loopMix_covered {cfg : TPConfig K} {dmin dmax : Pt K d} {target : Pt K d → XF K} {fuel nS : ℕ} :
    ∀ (its : List (TPMixIter K d)) (late : Bool) (S : TPSampler K d) (r : TPSampler K d × Bool), Covered S →
    loopMix cfg dmin dmax target fuel nS late its S = .ok r → Covered r.1
  | [], late, S, r, hc, h => by
    unfold loopMix at h
    cases hg : S.T.getSamples cfg.essTarget with
    | error e => rw [hg] at h; cases h
    | ok o => rw [hg] at h; cases h; exact hc
  | it :: its, late, S, r, hc, h => by
    unfold loopMix at h
    cases hg : S.T.getSamples cfg.essTarget with
    | error e => rw [hg] at h; cases h
    | ok o =>
      simp only [hg, bind, Except.bind] at h
      split_ifs at h
      · cases hi : iterateMix cfg dmin dmax target fuel nS o.2.length it S with
        | error e => rw [hi] at h; cases h
        | ok S1 =>
          rw [hi] at h
          exact loopMix_covered its it.late S1 r (iterateMix_covered hc hi) h
      · cases h
        exact hc

theorem call_covered {cfg : TPConfig K} {target : Pt K d → XF K} {nS : ℕ} {u0 : Pt K d} {its : List (TPIter K d)}
    {S : TPSampler K d} {r : TPSampler K d × Option (List (Pt K d) × List (XF K))} (hc : Untouched S ∨ Covered S)
    (h : importanceSampleSimple cfg target nS u0 its S = .ok r) : Covered r.1 := by
  unfold importanceSampleSimple at h
  cases h0 : initRoot target u0 S with
  | error e => simp only [h0, bind, Except.bind] at h; cases h
  | ok S0 =>
    cases h1 : loop cfg target nS false its S0 with
    | error e => simp only [h0, h1, bind, Except.bind] at h; cases h
    | ok q =>
      obtain ⟨S1, fin⟩ := q
      have c1 := loop_covered _ _ _ _ (initRoot_covered hc h0) h1
      simp only [h0, h1, bind, Except.bind] at h
      split_ifs at h
      · cases h2 : updateModel S1 with
        | error e => simp only [h2] at h; cases h
        | ok S2 =>
          cases h3 : S2.T.getSamples cfg.essTarget with
          | error e => simp only [h2, h3] at h; cases h
          | ok o =>
            simp only [h2, h3, pure, Except.pure] at h
            cases h
            exact updateModel_covered h2 c1
      · cases h
        exact c1

theorem callMix_covered {cfg : TPConfig K} {dmin dmax : Pt K d} {target : Pt K d → XF K} {fuel : ℕ} {c : TPMixCall K d}
    {S : TPSampler K d} {r : TPSampler K d × Option (List (Pt K d) × List (XF K))} (hc : Untouched S ∨ Covered S)
    (h : importanceSampleMix cfg dmin dmax target fuel c S = .ok r) : Covered r.1 := by
  unfold importanceSampleMix at h
  cases h0 : initRootMix target c.u0 S with
  | error e => simp only [h0, bind, Except.bind] at h; cases h
  | ok S0 =>
    cases h1 : loopMix cfg dmin dmax target fuel c.n false c.its S0 with
    | error e => simp only [h0, h1, bind, Except.bind] at h; cases h
    | ok q =>
      obtain ⟨S1, fin⟩ := q
      have c1 := loopMix_covered _ _ _ _ (initRootMix_covered hc h0) h1
      simp only [h0, h1, bind, Except.bind] at h
      split_ifs at h
      · cases h2 : updateModel S1 with
        | error e => simp only [h2] at h; cases h
        | ok S2 =>
          cases h3 : S2.T.getSamples cfg.essTarget with
          | error e => simp only [h2, h3] at h; cases h
          | ok o =>
            simp only [h2, h3, pure, Except.pure] at h
            cases h
            exact updateModel_covered h2 c1
      · cases h
        exact c1

theorem foldlM_covered {C : Type*} (f : TPSampler K d → C → Except PyErr (TPSampler K d))
    (hf : ∀ S c S', Untouched S ∨ Covered S → f S c = .ok S' → Covered S') : ∀ (cs : List C) (S S' : TPSampler K d),
    Untouched S ∨ Covered S → cs.foldlM f S = .ok S' → (cs ≠ [] → Covered S')
  | [], _, _, _, _ => fun h => absurd rfl h
  | c :: cs, S, S', hc, h => by
    intro _
    rw [List.foldlM_cons] at h
    cases hx : f S c with
    | error e => rw [hx] at h; cases h
    | ok S1 =>
      rw [hx] at h
      have h1 := hf S c S1 hc hx
      by_cases hcs : cs = []
      · subst hcs
        cases h
        exact h1
      · exact foldlM_covered f hf cs S1 S' (Or.inr h1) h hcs

theorem acceptRate_of_covered {S : TPSampler K d} (I : WF S.T) (hc : Covered S) {e : Option K}
    {o : List (Pt K d) × List (XF K)} (ho : S.T.getSamples e = .ok o) (hne : o.2 ≠ []) : IsRate (S.acceptRate e) := by
  have hpos : 0 < o.2.length := List.length_pos_iff.2 hne
  have hle : o.2.length ≤ S.numQ := by
    rcases getSamples_le I ho with h | h
    · exact h.trans hc.1
    · exact h.trans hc.2
  have hq : (0 : ℚ) < S.numQ := by exact_mod_cast (by omega : 0 < S.numQ)
  have ha : (0 : ℚ) < o.2.length := by exact_mod_cast hpos
  refine ⟨(o.2.length : ℚ) / S.numQ, ?_, by positivity, (div_le_one hq).2 (by exact_mod_cast hle)⟩
  unfold acceptRate
  simp only [ho]
  rw [if_neg (by omega)]

end TPSampler

/-- **C123** for the tree pyramid with the scheme "simple": after any number of calls on a new sampler, for any target, the
rate is a number in (0,1] whenever there are samples. -/
theorem C123_partial_tree {dmin dmax : Pt K d} (hlt : ∀ i, dmin i < dmax i) (cfg : TPConfig K) {t : K}
    (ht : cfg.essTarget = some t) (target : Pt K d → XF K) {S0 S : TPSampler K d} (h0 : TPSampler.new dmin dmax = .ok S0)
    (cs : List (TPCall K d)) (hcs : cs ≠ []) (hv : ∀ x ∈ cs, x.InRange) (h : S0.calls cfg target cs = .ok S)
    {o : List (Pt K d) × List (XF K)} (ho : S.T.getSamples cfg.essTarget = .ok o) (hne : o.2 ≠ []) :
    IsRate (S.acceptRate cfg.essTarget) := by
  obtain ⟨R, hR, b⟩ := TPSampler.new_blank hlt h0
  obtain ⟨S', h1, -, h2⟩ := TPSampler.calls_ready (target := target) hR cfg ht cs S0 hv (Or.inl b)
  rw [h] at h1
  cases h1
  obtain ⟨e, r⟩ := (h2 hcs).reached
  refine TPSampler.acceptRate_of_covered r.wf ?_ ho hne
  refine TPSampler.foldlM_covered _ ?_ cs S0 S (Or.inl (TPSampler.new_untouched h0)) h hcs
  intro S c S' hc hx
  cases hr : TPSampler.importanceSampleSimple cfg target c.n c.u0 c.its S with
  | error e => rw [hr] at hx; cases hx
  | ok q =>
    rw [hr] at hx
    cases hx
    exact TPSampler.call_covered hc hr

/-- **C123** for the tree pyramid with the scheme "mixture". -/
theorem C123_partial_tree_mixture {dmin dmax : Pt K d} (hlt : ∀ i, dmin i < dmax i) (cfg : TPConfig K)
    (target : Pt K d → XF K) (fuel : ℕ) {S0 S : TPSampler K d} (h0 : TPSampler.new dmin dmax = .ok S0)
    (cs : List (TPMixCall K d)) (hcs : cs ≠ []) (h : S0.callsMix cfg dmin dmax target fuel cs = .ok S)
    {o : List (Pt K d) × List (XF K)} (ho : S.T.getSamples cfg.essTarget = .ok o) (hne : o.2 ≠ []) :
    IsRate (S.acceptRate cfg.essTarget) := by
  obtain ⟨e, he, R, -, r⟩ := TPSampler.callsMix_tree hlt cs (by omega) (TPSampler.new_mixTree h0) h
  refine TPSampler.acceptRate_of_covered r.wf ?_ ho hne
  refine TPSampler.foldlM_covered _ ?_ cs S0 S (Or.inl (TPSampler.new_untouched h0)) h hcs
  intro S c S' hc hx
  cases hr : TPSampler.importanceSampleMix cfg dmin dmax target fuel c S with
  | error e => rw [hr] at hx; cases hx
  | ok q =>
    rw [hr] at hx
    cases hx
    exact TPSampler.callMix_covered hc hr

/-- One call of the scheme "simple" and one of "mixture": the number of samples and the rate. With leaf resampling the rate
drops, since every refreshed leaf counts as a point drawn. -/
example :
    ((TPSampler.new (K := ℚ) (d := 1) ![0] ![1]).toOption.bind fun S => (S.calls ⟨some 2, 1, 1, true⟩ (fun _ => XF.fin 1)
      [⟨2, ![1/2], [⟨fun _ => ![1/2], fun _ => ![1/4], false⟩]⟩]).toOption.map fun S => S.acceptRate (some 2)) =
      some (.ok (2/5)) ∧
    ((TPSampler.new (K := ℚ) (d := 1) ![0] ![1]).toOption.bind fun S => (S.callsMix ⟨some 2, 1, 1, false⟩ ![0] ![1]
      (fun _ => XF.fin 1) 50 [⟨2, ![1/2], [⟨fun _ _ _ => true, fun _ => ![1/2], fun _ _ _ => true, fun _ => ![1/3],
        fun _ => ![1/4], false⟩]⟩]).toOption.map fun S => S.acceptRate (some 2)) = some (.ok (1/2)) := by
  decide +kernel

/-- The hypotheses on the generator outputs of such a call. -/
example : TPCall.InRange (K := ℚ) (d := 1) ⟨2, ![1/2], [⟨fun _ => ![1/2], fun _ => ![1/4], false⟩]⟩ := by
  refine ⟨fun i => by fin_cases i; exact (by decide +kernel : (0 : ℚ) ≤ 1/2 ∧ (1/2 : ℚ) < 1), fun it hit => ?_⟩
  rw [List.mem_singleton] at hit
  subst hit
  exact ⟨fun _ i => by fin_cases i; exact (by decide +kernel : (0 : ℚ) ≤ 1/2 ∧ (1/2 : ℚ) < 1),
    fun _ i => by fin_cases i; exact (by decide +kernel : (0 : ℚ) ≤ 1/4 ∧ (1/4 : ℚ) < 1)⟩

end Verif
