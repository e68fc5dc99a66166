import Verif.Props.AxisOrder
import Verif.Props.ScaleHiD

/-!
# C158 for HiDaisee
-/

set_option linter.unusedSectionVars false
set_option autoImplicit false

namespace Verif
namespace HiD

section moving
variable {K : Type*} [Field K] [LinearOrder K] [IsStrictOrderedRing K] {d : ℕ} (e : Equiv.Perm (Fin d))

/-- The node with region and samples with the axes in the other order. -/
def Node.permuted (n : Node K d) : Node K d :=
  { n with center := n.center ∘ e, radius := n.radius ∘ e, samples := n.samples.map (List.map (· ∘ e)) }

/-- The tree with all nodes with the axes in the other order. -/
def Tree.permuted (T : Tree K d) : Tree K d := ⟨T.nodes.map (Node.permuted e), T.leaves⟩

/-- The sampler with regions and samples with the axes in the other order. -/
def Sampler.permuted (S : Sampler K d) : Sampler K d :=
  { S with T := S.T.permuted e, samples := S.samples.map (· ∘ e), model := (S.model.1.map fun r => (r.1 ∘ e, r.2 ∘ e), S.model.2) }

theorem addSample_permuted (n : Node K d) (x : Pt K d) (w : XF K) : (n.permuted e).addSample (x ∘ e) w = (n.addSample x w).permuted e := by
  unfold Node.addSample Node.permuted
  dsimp only
  cases n.samples <;> simp

variable {e}

theorem prob1_permuted (n : Node K d) (x : Pt K d) : (n.permuted e).sampler.prob1 (x ∘ e) = n.sampler.prob1 x := by
  have h : (n.permuted e).sampler.inlier (x ∘ e) ↔ n.sampler.inlier x :=
    ⟨fun h i => by
      have hi := h (e.symm i)
      unfold Node.sampler Node.permuted at hi
      show n.center i - n.radius i < x i ∧ x i ≤ n.center i + n.radius i
      simpa using hi, fun h i => h (e i)⟩
  have hv : (n.permuted e).sampler.probVal = n.sampler.probVal := by
    unfold Uniform.probVal
    show XF.fin 1 / XF.fin (∏ i, n.radius (e i) * 2) = XF.fin 1 / XF.fin (∏ i, n.radius i * 2)
    rw [Equiv.prod_comp e fun i => n.radius i * 2]
  unfold Uniform.prob1
  by_cases hi : n.sampler.inlier x
  · rw [if_pos hi, if_pos (h.2 hi), hv]
  · rw [if_neg hi, if_neg (mt h.1 hi)]

theorem sample1_permuted (n : Node K d) (u : Pt K d) : (n.permuted e).sampler.sample1 (u ∘ e) = n.sampler.sample1 u ∘ e := rfl

/-- The outcomes of an iteration with the axes in the other order: the axis of a split is the same axis. -/
def Iter.permuted (e : Equiv.Perm (Fin d)) (it : Iter K d) : Iter K d := { it with u := it.u ∘ e, j := e.symm it.j }

theorem getElem_permuted (T : Tree K d) (i : ℕ) : (T.permuted e).nodes[i]? = T.nodes[i]?.map (Node.permuted e) := List.getElem?_map

theorem push_permuted (p : Pt K d → XF K) (j : Fin d) (lr : Node K d × Node K d) (x : Pt K d) :
    push (fun x => p (x ∘ e.symm)) (e.symm j) (lr.1.permuted e, lr.2.permuted e) (x ∘ e) =
      (push p j lr x).map fun lr => (lr.1.permuted e, lr.2.permuted e) := by
  have h1 : (x ∘ e) (e.symm j) < (lr.1.permuted e).center (e.symm j) + (lr.1.permuted e).radius (e.symm j) ↔
      x j < lr.1.center j + lr.1.radius j := by
    show x (e (e.symm j)) < lr.1.center (e (e.symm j)) + lr.1.radius (e (e.symm j)) ↔ _
    rw [Equiv.apply_symm_apply]
  unfold push
  dsimp only
  simp only [h1, prob1_permuted, comp_back, addSample_permuted]
  split
  · split <;> rfl
  · split <;> rfl

theorem foldlM_permuted (p : Pt K d → XF K) (j : Fin d) : ∀ (xs : List (Pt K d)) (lr : Node K d × Node K d),
    (xs.map (· ∘ e)).foldlM (push (fun x => p (x ∘ e.symm)) (e.symm j)) (lr.1.permuted e, lr.2.permuted e) =
      (xs.foldlM (push p j) lr).map fun lr => (lr.1.permuted e, lr.2.permuted e)
  | [], _ => rfl
  | x :: xs, lr => by
    rw [List.map_cons, List.foldlM_cons, List.foldlM_cons, push_permuted]
    cases push p j lr x with
    | error e => rfl
    | ok lr' => exact foldlM_permuted p j xs lr'

theorem children_permuted (n : Node K d) (j : Fin d) :
    children (n.permuted e) (e.symm j) = ((children n j).1.permuted e, (children n j).2.permuted e) := by
  have h : ∀ (c : Pt K d) (r : K), Function.update (c ∘ e) (e.symm j) r = Function.update c j r ∘ e := by
    intro c r
    funext i
    by_cases hi : i = e.symm j
    · subst hi
      simp
    · have : e i ≠ j := fun h => hi (by rw [← h, Equiv.symm_apply_apply])
      simp [hi, this]
  unfold children Node.permuted Node.new
  simp only [Function.comp_apply, Equiv.apply_symm_apply, h]
  simp

theorem split_permuted (T : Tree K d) (i : ℕ) (j : Fin d) (p : Pt K d → XF K) :
    (T.permuted e).split i (e.symm j) (fun x => p (x ∘ e.symm)) = (T.split i j p).map (Tree.permuted e) := by
  unfold Tree.split
  rw [getElem_permuted]
  cases T.nodes[i]? with
  | none => rfl
  | some n =>
    dsimp only [Option.map]
    have h1 : (n.permuted e).samples = n.samples.map (List.map (· ∘ e)) := rfl
    rw [h1]
    cases hs : n.samples with
    | none => rfl
    | some xs =>
      dsimp only [Option.map]
      rw [children_permuted, foldlM_permuted]
      cases xs.foldlM (push p j) (children n j) with
      | error e => rfl
      | ok lr =>
        show (if i ∈ T.leaves then _ else _) = _
        dsimp only
        split
        · simp only [Except.map, Tree.permuted, List.length_map, List.map_append, List.map_set, List.map_cons, List.map_nil]
          rfl
        · rfl

theorem select_permuted (T : Tree K d) (rs : ℕ → K) : ∀ (fuel k : ℕ) (P : List ℕ) (id : ℕ),
    (T.permuted e).select rs fuel k P id = T.select rs fuel k P id
  | 0, k, P, id => by
    rw [Tree.select, Tree.select]
    rfl
  | fuel + 1, k, P, id => by
    rw [Tree.select, Tree.select, getElem_permuted]
    show (if id ∈ T.leaves then _ else _) = _
    split
    · rfl
    · cases T.nodes[id]? with
      | none => rfl
      | some n =>
        dsimp only [Option.map]
        show (match n.left, n.right with
          | some l, some r => _
          | _, _ => _) = _
        cases n.left with
        | none => rfl
        | some l =>
          cases n.right with
          | none => rfl
          | some r =>
            dsimp only
            rw [getElem_permuted, getElem_permuted]
            cases T.nodes[l]? with
            | none => rfl
            | some nl =>
              cases T.nodes[r]? with
              | none => rfl
              | some nr => exact select_permuted T rs fuel (k + 1) _ _

theorem totalEv_permuted (cf : Cfg K) (t : ℕ) (T : Tree K d) : totalEv cf t (T.permuted e) = totalEv cf t T := by
  unfold totalEv
  show (T.leaves.map _).sum = _
  congr 1
  apply List.map_congr_left
  intro l _
  rw [getElem_permuted]
  cases T.nodes[l]? <;> rfl

theorem refreshQ_permuted (nodes : List (Node K d)) (i : ℕ) :
    refreshQ (nodes.map (Node.permuted e)) i = (refreshQ nodes i).map (Node.permuted e) := by
  have hq : ∀ o : Option ℕ, ((o.bind ((nodes.map (Node.permuted e))[·]?)).map Node.q) = ((o.bind (nodes[·]?)).map Node.q) := by
    intro o
    cases o with
    | none => rfl
    | some l =>
      simp only [Option.bind_some, List.getElem?_map]
      cases nodes[l]? <;> rfl
  unfold refreshQ
  apply List.ext_getElem?
  intro k
  rw [List.getElem?_map, List.getElem?_modify, List.getElem?_modify, List.getElem?_map]
  cases nodes[k]? with
  | none => rfl
  | some n =>
    simp only [Option.map_some]
    split
    · have h1 : (n.permuted e).left = n.left := rfl
      have h2 : (n.permuted e).right = n.right := rfl
      simp only [h1, h2, hq]
      rfl
    · rfl

theorem foldl_refresh_permuted (P : List ℕ) : ∀ nodes : List (Node K d),
    P.foldl refreshQ (nodes.map (Node.permuted e)) = (P.foldl refreshQ nodes).map (Node.permuted e) := by
  induction P with
  | nil => intro _; rfl
  | cons i P ih =>
    intro nodes
    rw [List.foldl_cons, List.foldl_cons, refreshQ_permuted, ih]

theorem iterate_permuted (cf : Cfg K) (p : Pt K d → XF K) (t : ℕ) (it : Iter K d) (T : Tree K d) :
    iterate cf (fun x => p (x ∘ e.symm)) t (it.permuted e) (T.permuted e) = (iterate cf p t it T).map fun r => (r.1.permuted e, r.2) := by
  have hrs : (it.permuted e).rs = it.rs := rfl
  have hu : (it.permuted e).u = it.u ∘ e := rfl
  have hj : (it.permuted e).j = e.symm it.j := rfl
  unfold iterate
  have hlen : (T.permuted e).nodes.length = T.nodes.length := List.length_map _
  rw [hlen, select_permuted, hrs, hu, hj]
  cases T.select it.rs T.nodes.length 0 [0] 0 with
  | error e => rfl
  | ok r =>
    obtain ⟨P, id⟩ := r
    dsimp only
    rw [getElem_permuted]
    cases T.nodes[id]? with
    | none => rfl
    | some n =>
      dsimp only [Option.map]
      rw [sample1_permuted, prob1_permuted, comp_back, addSample_permuted]
      split
      · rfl
      · generalize n.addSample (n.sampler.sample1 it.u) (p (n.sampler.sample1 it.u) / n.sampler.prob1 (n.sampler.sample1 it.u)) = m
        have hT : (⟨(T.permuted e).nodes.set id (m.permuted e), (T.permuted e).leaves⟩ : Tree K d) = Tree.permuted e ⟨T.nodes.set id m, T.leaves⟩ := by
          simp [Tree.permuted, List.map_set]
        have hN : (m.permuted e).N = m.N := rfl
        have hmean : (m.permuted e).mean = m.mean := rfl
        rw [hT, totalEv_permuted, hN, hmean]
        generalize (m.mean + cf.boost t m.N) / totalEv cf t ⟨T.nodes.set id m, T.leaves⟩ = q
        have hset : (T.permuted e).nodes.set id { center := (m.permuted e).center, radius := (m.permuted e).radius, q := q, left := (m.permuted e).left, right := (m.permuted e).right, samples := (m.permuted e).samples, weights := (m.permuted e).weights, N := m.N, ess := (m.permuted e).ess } =
            (T.nodes.set id { m with q := q }).map (Node.permuted e) := by
          simp only [Tree.permuted, List.map_set]
          rfl
        rw [hset, foldl_refresh_permuted]
        have hT2 : (⟨(P.dropLast.reverse.foldl refreshQ (T.nodes.set id { m with q := q })).map (Node.permuted e), (T.permuted e).leaves⟩ : Tree K d) =
          Tree.permuted e ⟨P.dropLast.reverse.foldl refreshQ (T.nodes.set id { m with q := q }), T.leaves⟩ := rfl
        rw [hT2, split_permuted]
        show (if cf.nMin ≤ m.N ∧ XF.ltb m.ess (XF.fin (cf.essTarget * m.N)) = true then _ else _) = _
        by_cases hif : cf.nMin ≤ m.N ∧ XF.ltb m.ess (XF.fin (cf.essTarget * m.N)) = true
        · rw [if_pos hif, if_pos hif]
          generalize Tree.split _ id it.j p = r
          cases r <;> rfl
        · rw [if_neg hif, if_neg hif]
          rfl

theorem iterations_permuted (cf : Cfg K) (p : Pt K d → XF K) : ∀ (its : List (Iter K d)) (t : ℕ) (S : Sampler K d),
    iterations cf (fun x => p (x ∘ e.symm)) t (its.map (Iter.permuted e)) (S.permuted e) = (iterations cf p t its S).map (Sampler.permuted e)
  | [], _, _ => rfl
  | it :: its, t, S => by
    rw [List.map_cons]
    unfold iterations
    have hT : (S.permuted e).T = S.T.permuted e := rfl
    rw [hT, iterate_permuted]
    cases iterate cf p t it S.T with
    | error e => rfl
    | ok r => exact iterations_permuted cf p its (t + 1) { S with T := r.1, numQ := S.numQ + 1, numPi := S.numPi + r.2, numQEval := S.numQEval + r.2 }

theorem leafNodes_permuted (T : Tree K d) : (T.permuted e).leafNodes = T.leafNodes.map (Node.permuted e) := by
  unfold Tree.leafNodes
  rw [List.map_filterMap]
  congr 1
  funext i
  exact getElem_permuted T i

theorem call_permuted (cf : Cfg K) (p : Pt K d → XF K) (n : ℕ) (its : ℕ → Iter K d) (S : Sampler K d) :
    importanceSample cf (fun x => p (x ∘ e.symm)) n (fun k => (its k).permuted e) (S.permuted e) = (importanceSample cf p n its S).map (Sampler.permuted e) := by
  have hl : (S.permuted e).samples.length = S.samples.length := List.length_map _
  unfold importanceSample
  have hm : (List.range (n - S.samples.length)).map (fun k => (its k).permuted e) =
      ((List.range (n - S.samples.length)).map its).map (Iter.permuted e) := by rw [List.map_map]; rfl
  rw [hl, hm, iterations_permuted]
  cases iterations cf p S.samples.length ((List.range (n - S.samples.length)).map its) S with
  | error e => rfl
  | ok S1 =>
    have hm : (S1.permuted e).T.leafNodes = S1.T.leafNodes.map (Node.permuted e) := leafNodes_permuted S1.T
    have hw : ((S1.T.leafNodes.map (Node.permuted e)).map Node.mean) = (S1.T.leafNodes.map Node.mean) := by
      rw [List.map_map]
      exact List.map_congr_left fun n _ => rfl
    have hg : ∀ (r : List (Pt K d × Pt K d) × List (XF K)), getSamples { S1.permuted e with model := (r.1.map fun r => (r.1 ∘ e, r.2 ∘ e), r.2) } =
        (getSamples { S1 with model := r }).permuted e := by
      intro r
      unfold getSamples Sampler.permuted
      dsimp only
      rw [leafNodes_permuted, List.flatMap_map, List.flatMap_map, List.map_flatMap]
      congr 2
      funext n
      show ((n.samples.map (List.map (· ∘ e))).getD []) = _
      cases n.samples <;> rfl
    simp only [Except.map, updateModel]
    rw [hm, hw, List.length_map]
    cases setWeights S1.T.leafNodes.length (S1.T.leafNodes.map Node.mean) with
    | error e => rfl
    | ok w =>
      dsimp only
      congr 1
      rw [← hg]
      dsimp only
      rw [List.map_map, List.map_map]
      rfl

theorem reset_permuted (lo hi : Pt K d) : reset (lo ∘ e) (hi ∘ e) = (reset lo hi).permuted e := by
  rfl

end moving
end HiD

/-- **C158** for HiDaisee: any number of calls after the construction. -/
theorem C158_hidaisee {K : Type*} [Field K] [LinearOrder K] [IsStrictOrderedRing K] {d : ℕ} (e : Equiv.Perm (Fin d)) (cf : HiD.Cfg K)
    (p : Pt K d → XF K) (lo hi : Pt K d) (calls : List (ℕ × (ℕ → HiD.Iter K d))) :
    (calls.foldlM (fun S a => HiD.importanceSample cf (fun x => p (x ∘ e.symm)) a.1
        (fun k => { a.2 k with u := (a.2 k).u ∘ e, j := e.symm (a.2 k).j }) S) (HiD.reset (lo ∘ e) (hi ∘ e))).map
        (fun S => (S.samples, S.weights, S.model, S.numPi, S.numQEval, S.numQ)) =
      (calls.foldlM (fun S a => HiD.importanceSample cf p a.1 a.2 S) (HiD.reset lo hi)).map
        fun S => (S.samples.map (· ∘ e), S.weights, (S.model.1.map (fun r => (r.1 ∘ e, r.2 ∘ e)), S.model.2), S.numPi, S.numQEval, S.numQ) := by
  rw [HiD.reset_permuted]
  generalize HiD.reset lo hi = S
  induction calls generalizing S with
  | nil => rfl
  | cons a calls ih =>
    have h := HiD.call_permuted (e := e) cf p a.1 a.2 S
    unfold HiD.Iter.permuted at h
    rw [List.foldlM_cons, List.foldlM_cons, h]
    cases HiD.importanceSample cf p a.1 a.2 S with
    | error e => rfl
    | ok S' => exact ih S'

/-- A call that splits the root along the second axis, and the corresponding call with the axes exchanged, both without an exception. -/
example : let its : ℕ → HiD.Iter ℚ 2 := fun k => ⟨fun _ => 0, ![1 / 3, if k = 0 then 1 / 4 else 3 / 4], 1⟩
    let e : Equiv.Perm (Fin 2) := Equiv.swap 0 1
    (HiD.importanceSample ⟨fun _ _ => .fin 1, 2, 2⟩ (fun x => .fin (1 + x 1 * x 1)) 2 its (HiD.reset ![0, 0] ![1, 4])).toBool = true ∧
    (HiD.importanceSample ⟨fun _ _ => .fin 1, 2, 2⟩ (fun x => .fin (1 + x 0 * x 0)) 2
      (fun k => { its k with u := (its k).u ∘ e, j := e.symm (its k).j }) (HiD.reset ![0, 0] ![4, 1])).toBool = true := by
  decide +kernel

end Verif
