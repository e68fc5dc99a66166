import Verif.Proof.TPSampler

set_option linter.unusedSectionVars false
set_option autoImplicit false

namespace Verif

variable {K : Type*} [Field K] [LinearOrder K] [IsStrictOrderedRing K] {d : ℕ}

namespace TPTree

/-- One pass of the loop of `_get_samples`. -/
def writeStep (acc : List (Pt K d) × List (XF K)) (x : (List (Pt K d) × List (XF K)) × ℕ) :
    Except PyErr (List (Pt K d) × List (XF K)) :=
  if x.1.1.length = x.1.2.length then do
    let s ← writeSlice acc.1 x.2 x.1.1
    let w ← writeSlice acc.2 x.2 x.1.2
    return (s, w)
  else .error PyErr.value

theorem getSamples_hist (T : TPTree K d) {t : K} (ht : t ≤ 1) (ch : ℕ → List (Pt K d)) (wh : ℕ → List (XF K))
    (hh : ∀ p ∈ T.leaves, ∃ n : TPNode K d, T.nodes[p]? = some n ∧ n.coordsHist = some (ch p) ∧
      n.weightHist = some (wh p)) {s : List (Pt K d)} {w : List (XF K)}
    (hw : ((T.leaves.map fun p => (ch p, wh p)).zipIdx).foldlM writeStep
      (List.replicate ((T.leaves.map fun p => (wh p).length).sum) (fun _ => 0),
       List.replicate ((T.leaves.map fun p => (wh p).length).sum) (XF.fin 0)) = .ok (s, w)) :
    T.getSamples (some t) = .ok (maskSelect (w.map fun v => XF.ltb (XF.fin 0) v) s,
      maskSelect (w.map fun v => XF.ltb (XF.fin 0) v) w) := by
  have hm : T.leaves.mapM (fun p => (T.nodes[p]?).bind fun n =>
          (n.coordsHist.bind fun ch => n.weightHist.map fun wh => (ch, wh)))
        = some (T.leaves.map fun p => (ch p, wh p)) := by
    apply mapM_some
    intro p hp
    obtain ⟨n, h1, h2, h3⟩ := hh p hp
    simp [h1, h2, h3]
  have hsum : ((T.leaves.map fun p => (ch p, wh p)).map fun h => h.2.length).sum
      = (T.leaves.map fun p => (wh p).length).sum := by
    rw [List.map_map]; rfl
  unfold getSamples
  simp only [if_neg (not_lt.2 ht), hm, hsum]
  have : (fun (acc : List (Pt K d) × List (XF K)) (x : (List (Pt K d) × List (XF K)) × ℕ) =>
            if x.1.1.length = x.1.2.length then do
              let s ← writeSlice acc.1 x.2 x.1.1
              let w ← writeSlice acc.2 x.2 x.1.2
              return (s, w)
            else .error PyErr.value) = writeStep := rfl
  rw [this, hw]

theorem zip_maskSelect {α β : Type*} (f : β → Bool) : ∀ (s : List α) (w : List β), s.length = w.length →
    (maskSelect (w.map f) s).length = (maskSelect (w.map f) w).length ∧
    (maskSelect (w.map f) s).zip (maskSelect (w.map f) w) = (s.zip w).filter fun e => f e.2
  | [], [], _ => by simp [maskSelect]
  | [], _ :: _, h => by simp at h
  | _ :: _, [], h => by simp at h
  | a :: s, b :: w, h => by
    obtain ⟨h1, h2⟩ := zip_maskSelect f s w (by simpa using h)
    cases hb : f b with
    | true => simp [maskSelect, hb] at h1 h2 ⊢; exact ⟨h1, h2⟩
    | false => simp [maskSelect, hb] at h1 h2 ⊢; exact ⟨h1, h2⟩

theorem zip_writeSlice {α β : Type*} {a : List α} {b : List β} (hab : a.length = b.length) {v : List α} {w : List β}
    (hvw : v.length = w.length) (i : ℕ) (hi : i + v.length ≤ a.length) :
    ∃ a' b', writeSlice a i v = .ok a' ∧ writeSlice b i w = .ok b' ∧ a'.length = a.length ∧ b'.length = b.length ∧
      a'.zip b' = (a.zip b).take i ++ v.zip w ++ (a.zip b).drop (i + v.length) := by
  refine ⟨_, _, by unfold writeSlice; rw [if_pos hi], by unfold writeSlice; rw [if_pos (by omega)], ?_, ?_, ?_⟩
  · simp; omega
  · simp; omega
  · rw [List.zip_append (by simp; omega), List.zip_append (by simp; omega)]
    unfold List.zip
    rw [List.take_zipWith, List.drop_zipWith, hvw]

/-- The loop of `_get_samples` on aligned histories: it does not fail; every pair comes from a history or is the
initial zero pair; if every history but the last has one entry the result is the concatenation. -/
theorem write_spec (N : ℕ) : ∀ (hs : List (List (Pt K d) × List (XF K))) (k : ℕ) (acc : List (Pt K d) × List (XF K)),
    acc.1.length = N → acc.2.length = N → (∀ h ∈ hs, h.1.length = h.2.length ∧ 1 ≤ h.2.length) →
    k + (hs.map fun h => h.2.length).sum ≤ N →
    ∃ out, (hs.zipIdx k).foldlM writeStep acc = .ok out ∧ out.1.length = N ∧ out.2.length = N ∧
      (∀ e ∈ out.1.zip out.2, e ∈ acc.1.zip acc.2 ∨ ∃ h ∈ hs, e ∈ h.1.zip h.2) ∧
      ((∀ h ∈ hs.dropLast, h.2.length = 1) → out.1.zip out.2 = (acc.1.zip acc.2).take k ++
        (hs.flatMap fun h => h.1.zip h.2) ++ (acc.1.zip acc.2).drop (k + (hs.map fun h => h.2.length).sum))
  | [], k, acc, h1, h2, _, _ => ⟨acc, rfl, h1, h2, fun e he => Or.inl he, fun _ => by simp⟩
  | h :: hs, k, acc, h1, h2, hh, hN => by
    obtain ⟨hl, hpos⟩ := hh h (by simp)
    simp only [List.map_cons, List.sum_cons] at hN
    obtain ⟨s, w, hs1, hw1, hs2, hw2, hz⟩ := zip_writeSlice (a := acc.1) (b := acc.2) (by omega) hl k (by omega)
    have hstep : writeStep acc (h, k) = .ok (s, w) := by
      unfold writeStep
      simp only [hl, if_true, hs1, hw1, bind, Except.bind, pure, Except.pure]
    obtain ⟨out, o1, o2, o3, o4, o5⟩ := write_spec N hs (k + 1) (s, w) (by simp [hs2, h1]) (by simp [hw2, h2])
      (fun g hg => hh g (by simp [hg])) (by omega)
    refine ⟨out, ?_, o2, o3, ?_, ?_⟩
    · rw [List.zipIdx_cons, List.foldlM_cons, hstep]
      exact o1
    · intro e he
      rcases o4 e he with h' | ⟨g, hg, hge⟩
      · simp only at h'
        rw [hz] at h'
        rcases List.mem_append.1 h' with h' | h'
        · rcases List.mem_append.1 h' with h' | h'
          · exact Or.inl (List.mem_of_mem_take h')
          · exact Or.inr ⟨h, by simp, h'⟩
        · exact Or.inl (List.mem_of_mem_drop h')
      · exact Or.inr ⟨g, by simp [hg], hge⟩
    · intro hone
      have hzl : (acc.1.zip acc.2).length = N := by simp [h1, h2]
      cases hs with
      | nil =>
        simp only [List.zipIdx_nil, List.foldlM_nil, pure, Except.pure, Except.ok.injEq] at o1
        rw [← o1]
        simp only [hz, List.flatMap_cons, List.flatMap_nil, List.append_nil, List.map_cons, List.map_nil, List.sum_cons,
          List.sum_nil, hl, add_zero]
      | cons g gs =>
        have h1' : h.2.length = 1 := hone h (by simp)
        have := o5 (fun q hq => hone q (by simp [hq]))
        rw [this]
        simp only
        rw [hz]
        have hlen : ((acc.1.zip acc.2).take k ++ h.1.zip h.2).length = k + 1 := by
          rw [List.length_append, List.length_take, hzl, List.length_zip, hl, h1', min_self]
          omega
        rw [List.take_left' hlen, hl, h1']
        have hd : k + 1 + (List.map (fun h : List (Pt K d) × List (XF K) => h.2.length) (g :: gs)).sum
            = ((acc.1.zip acc.2).take k ++ h.1.zip h.2).length +
              (List.map (fun h : List (Pt K d) × List (XF K) => h.2.length) (g :: gs)).sum := by rw [hlen]
        rw [hd, List.drop_length_add_append, List.drop_drop, List.flatMap_cons (x := h), List.map_cons (a := h),
          List.sum_cons, h1', add_assoc k 1]
        simp only [List.append_assoc]

theorem length_maskSelect {α β : Type*} : ∀ (m : List Bool) (a : List α) (b : List β), a.length = b.length →
    (maskSelect m a).length = (maskSelect m b).length
  | [], a, b, _ => by simp [maskSelect]
  | c :: m, [], [], _ => by simp [maskSelect]
  | c :: m, [], _ :: _, h => by simp at h
  | c :: m, _ :: _, [], h => by simp at h
  | c :: m, x :: a, y :: b, h => by
    have := length_maskSelect m a b (by simpa using h)
    cases c <;> simpa [maskSelect] using this

/-- Normalising the weights does not change the number of samples returned. -/
theorem getSamples_selfNormalize {T : TPTree K d} (I : WF T) {t : K} {o o' : List (Pt K d) × List (XF K)}
    (h : T.getSamples (some t) = .ok o) (h' : T.selfNormalize.getSamples (some t) = .ok o') :
    o'.2.length = o.2.length := by
  have hs := selfNormalize_same I
  have hn : T.selfNormalize.nodes = T.nodes := by
    unfold selfNormalize
    simp only
    split_ifs <;> rfl
  by_cases ht : 1 < t
  · unfold getSamples at h h'
    simp only [if_pos ht, Except.ok.injEq] at h h'
    rw [← h, ← h', hs.leavesIdx]
    apply length_maskSelect
    rw [hs.lenW]
  · unfold getSamples at h h'
    simp only [if_neg ht, hn, hs.leaves] at h h'
    rw [h] at h'
    simp only [Except.ok.injEq] at h'
    rw [h']

theorem getSamples_aligned {target : Pt K d → XF K} {T : TPTree K d} (I : WF T) {t : K}
    (hist : ∀ p ∈ T.leaves, HistOK target T p) {o : List (Pt K d) × List (XF K)}
    (h : T.getSamples (some t) = .ok o) : o.1.length = o.2.length := by
  by_cases ht : 1 < t
  · unfold getSamples at h
    simp only [if_pos ht, Except.ok.injEq] at h
    rw [← h]
    apply length_maskSelect
    rw [I.lenS, I.lenW]
  · obtain ⟨⟨s, w⟩, o1, o2, o3, _⟩ := write_spec (T.leaves.map fun p =>
        (((T.nodes[p]?).bind fun n => n.weightHist).getD []).length).sum
      (T.leaves.map fun p => (((T.nodes[p]?).bind fun n => n.coordsHist).getD [],
            ((T.nodes[p]?).bind fun n => n.weightHist).getD [])) 0
      (List.replicate _ (fun _ => 0), List.replicate _ (XF.fin 0)) (by simp; rfl) (by simp; rfl) (by
        intro g hg
        obtain ⟨p, hp, rfl⟩ := List.mem_map.1 hg
        obtain ⟨n, ch, wh, h1, h2, h3, h4, _⟩ := hist p hp
        simp only [h1, h2, h3, Option.bind_some, Option.getD_some]
        refine ⟨h4.len, ?_⟩
        rw [← h4.len]
        exact List.length_pos_iff.2 h4.ne) (by rw [List.map_map]; simp [Function.comp_def])
    have := getSamples_hist T (not_lt.1 ht) (fun p => ((T.nodes[p]?).bind fun n => n.coordsHist).getD [])
      (fun p => ((T.nodes[p]?).bind fun n => n.weightHist).getD []) (by
        intro p hp
        obtain ⟨n, ch, wh, h1, h2, h3, h4, _⟩ := hist p hp
        exact ⟨n, h1, by simp [h1, h2], by simp [h1, h3]⟩) o1
    rw [this] at h
    simp only [Except.ok.injEq] at h
    rw [← h]
    exact (zip_maskSelect _ s w (by simp at o2 o3; omega)).1

end TPTree

namespace TPSampler
open TPTree

/-- When the loop is left, enough samples are there or the time limit passed. -/
theorem loop_exit {target : Pt K d → XF K} (cfg : TPConfig K) (nS : ℕ) : ∀ (its : List (TPIter K d)) (late : Bool)
    (S S' : TPSampler K d), loop cfg target nS late its S = .ok (S', true) →
    ∃ o, S'.T.getSamples cfg.essTarget = .ok o ∧ (nS ≤ o.2.length ∨ late = true ∨ ∃ it ∈ its, it.late = true)
  | [], late, S, S', h => by
    unfold loop at h
    cases hg : S.T.getSamples cfg.essTarget with
    | error e => simp [hg, bind, Except.bind] at h
    | ok o =>
      simp only [hg, bind, Except.bind, pure, Except.pure, Except.ok.injEq, Prod.mk.injEq, decide_eq_true_eq] at h
      obtain ⟨rfl, h⟩ := h
      refine ⟨o, hg, ?_⟩
      cases late
      · left; simpa using h
      · right; left; rfl
  | it :: its, late, S, S', h => by
    unfold loop at h
    cases hg : S.T.getSamples cfg.essTarget with
    | error e => simp [hg, bind, Except.bind] at h
    | ok o =>
      simp only [hg, bind, Except.bind, pure, Except.pure] at h
      split_ifs at h with hc
      · cases hi : iterate cfg target it S with
        | error e => simp [hi] at h
        | ok S1 =>
          rw [hi] at h
          obtain ⟨o', h1, h2⟩ := loop_exit cfg nS its it.late S1 S' h
          refine ⟨o', h1, ?_⟩
          rcases h2 with h2 | h2 | ⟨i, hi, h2⟩
          · exact Or.inl h2
          · exact Or.inr (Or.inr ⟨it, by simp, h2⟩)
          · exact Or.inr (Or.inr ⟨i, by simp [hi], h2⟩)
      · simp only [Except.ok.injEq, Prod.mk.injEq, and_true] at h
        subst h
        refine ⟨o, hg, ?_⟩
        cases late
        · left; simpa using hc
        · right; left; rfl

end TPSampler
end Verif
