import Verif.Props.Shift
import Verif.Props.ScaleHiD

/-!
# C152 for HiDaisee
-/

set_option linter.unusedSectionVars false
set_option autoImplicit false

namespace Verif
namespace HiD

section moving
variable {K : Type*} [Field K] [LinearOrder K] [IsStrictOrderedRing K] {d : ℕ} (b : Pt K d)

/-- The node with region and samples moved by `b`. -/
def Node.moved (n : Node K d) : Node K d := { n with center := n.center + b, samples := n.samples.map (List.map (· + b)) }

/-- The tree with all nodes moved by `b`. -/
def Tree.moved (T : Tree K d) : Tree K d := ⟨T.nodes.map (Node.moved b), T.leaves⟩

/-- The sampler with regions and samples moved by `b`. -/
def Sampler.moved (S : Sampler K d) : Sampler K d :=
  { S with T := S.T.moved b, samples := S.samples.map (· + b), model := (S.model.1.map fun r => (r.1 + b, r.2), S.model.2) }

theorem addSample_moved (n : Node K d) (x : Pt K d) (w : XF K) : (n.moved b).addSample (x + b) w = (n.addSample x w).moved b := by
  unfold Node.addSample Node.moved
  dsimp only
  cases n.samples <;> simp

theorem prob1_moved (n : Node K d) (x : Pt K d) : (n.moved b).sampler.prob1 (x + b) = n.sampler.prob1 x := by
  have h : (n.moved b).sampler.inlier (x + b) ↔ n.sampler.inlier x := by
    unfold Uniform.inlier Node.sampler Node.moved
    refine forall_congr' fun i => ?_
    have h1 : (n.center + b) i - n.radius i = n.center i - n.radius i + b i := by rw [Pi.add_apply]; ring
    have h2 : (n.center + b) i + n.radius i = n.center i + n.radius i + b i := by rw [Pi.add_apply]; ring
    dsimp only
    rw [h1, h2, Pi.add_apply, add_lt_add_iff_right, add_le_add_iff_right]
  unfold Uniform.prob1
  by_cases hi : n.sampler.inlier x
  · rw [if_pos hi, if_pos (h.2 hi)]
    rfl
  · rw [if_neg hi, if_neg (mt h.1 hi)]

theorem sample1_moved (n : Node K d) (u : Pt K d) : (n.moved b).sampler.sample1 u = n.sampler.sample1 u + b := by
  funext i
  unfold Uniform.sample1 Node.sampler Node.moved
  simp only [Pi.add_apply]
  ring

theorem getElem_moved (T : Tree K d) (i : ℕ) : (T.moved b).nodes[i]? = T.nodes[i]?.map (Node.moved b) := List.getElem?_map

theorem push_moved (p : Pt K d → XF K) (j : Fin d) (lr : Node K d × Node K d) (x : Pt K d) :
    push (fun x => p (x - b)) j (lr.1.moved b, lr.2.moved b) (x + b) =
      (push p j lr x).map fun lr => (lr.1.moved b, lr.2.moved b) := by
  have h1 : (lr.1.moved b).center j + (lr.1.moved b).radius j = lr.1.center j + lr.1.radius j + b j := add_right_comm _ _ _
  unfold push
  dsimp only
  simp only [h1, prob1_moved, Pi.add_apply, add_lt_add_iff_right, add_sub_cancel_right, addSample_moved]
  split
  · split <;> rfl
  · split <;> rfl

theorem foldlM_moved (p : Pt K d → XF K) (j : Fin d) : ∀ (xs : List (Pt K d)) (lr : Node K d × Node K d),
    (xs.map (· + b)).foldlM (push (fun x => p (x - b)) j) (lr.1.moved b, lr.2.moved b) =
      (xs.foldlM (push p j) lr).map fun lr => (lr.1.moved b, lr.2.moved b)
  | [], _ => rfl
  | x :: xs, lr => by
    rw [List.map_cons, List.foldlM_cons, List.foldlM_cons, push_moved]
    cases push p j lr x with
    | error e => rfl
    | ok lr' => exact foldlM_moved p j xs lr'

theorem children_moved (n : Node K d) (j : Fin d) : children (n.moved b) j = ((children n j).1.moved b, (children n j).2.moved b) := by
  have h : ∀ r : K, Function.update (n.center + b) j (n.center j + b j + r) = Function.update n.center j (n.center j + r) + b := by
    intro r
    funext i
    by_cases hi : i = j
    · subst hi
      simp [add_right_comm]
    · simp [hi]
  unfold children Node.moved Node.new
  simp only [Pi.add_apply, sub_eq_add_neg, h]
  simp

theorem split_moved (T : Tree K d) (i : ℕ) (j : Fin d) (p : Pt K d → XF K) :
    (T.moved b).split i j (fun x => p (x - b)) = (T.split i j p).map (Tree.moved b) := by
  unfold Tree.split
  rw [getElem_moved]
  cases T.nodes[i]? with
  | none => rfl
  | some n =>
    dsimp only [Option.map]
    have h1 : (n.moved b).samples = n.samples.map (List.map (· + b)) := rfl
    rw [h1]
    cases hs : n.samples with
    | none => rfl
    | some xs =>
      dsimp only [Option.map]
      rw [children_moved, foldlM_moved]
      cases xs.foldlM (push p j) (children n j) with
      | error e => rfl
      | ok lr =>
        show (if i ∈ T.leaves then _ else _) = _
        dsimp only
        split
        · simp only [Except.map, Tree.moved, List.length_map, List.map_append, List.map_set, List.map_cons, List.map_nil]
          rfl
        · rfl

theorem select_moved (T : Tree K d) (rs : ℕ → K) : ∀ (fuel k : ℕ) (P : List ℕ) (id : ℕ),
    (T.moved b).select rs fuel k P id = T.select rs fuel k P id
  | 0, k, P, id => by
    rw [Tree.select, Tree.select]
    rfl
  | fuel + 1, k, P, id => by
    rw [Tree.select, Tree.select, getElem_moved]
    show (if id ∈ T.leaves then _ else _) = _
    split
    · rfl
    · cases T.nodes[id]? with
      | none => rfl
      | some n =>
        dsimp only [Option.map]
        show (match n.left, n.right with
          | some l, some r => _
          | _, _ => _) = _
        cases n.left with
        | none => rfl
        | some l =>
          cases n.right with
          | none => rfl
          | some r =>
            dsimp only
            rw [getElem_moved, getElem_moved]
            cases T.nodes[l]? with
            | none => rfl
            | some nl =>
              cases T.nodes[r]? with
              | none => rfl
              | some nr => exact select_moved T rs fuel (k + 1) _ _

theorem totalEv_moved (cf : Cfg K) (t : ℕ) (T : Tree K d) : totalEv cf t (T.moved b) = totalEv cf t T := by
  unfold totalEv
  show (T.leaves.map _).sum = _
  congr 1
  apply List.map_congr_left
  intro l _
  rw [getElem_moved]
  cases T.nodes[l]? <;> rfl

theorem refreshQ_moved (nodes : List (Node K d)) (i : ℕ) :
    refreshQ (nodes.map (Node.moved b)) i = (refreshQ nodes i).map (Node.moved b) := by
  have hq : ∀ o : Option ℕ, ((o.bind ((nodes.map (Node.moved b))[·]?)).map Node.q) = ((o.bind (nodes[·]?)).map Node.q) := by
    intro o
    cases o with
    | none => rfl
    | some l =>
      simp only [Option.bind_some, List.getElem?_map]
      cases nodes[l]? <;> rfl
  unfold refreshQ
  apply List.ext_getElem?
  intro k
  rw [List.getElem?_map, List.getElem?_modify, List.getElem?_modify, List.getElem?_map]
  cases nodes[k]? with
  | none => rfl
  | some n =>
    simp only [Option.map_some]
    split
    · have h1 : (n.moved b).left = n.left := rfl
      have h2 : (n.moved b).right = n.right := rfl
      simp only [h1, h2, hq]
      rfl
    · rfl

theorem foldl_refresh_moved (P : List ℕ) : ∀ nodes : List (Node K d),
    P.foldl refreshQ (nodes.map (Node.moved b)) = (P.foldl refreshQ nodes).map (Node.moved b) := by
  induction P with
  | nil => intro _; rfl
  | cons i P ih =>
    intro nodes
    rw [List.foldl_cons, List.foldl_cons, refreshQ_moved, ih]

theorem iterate_moved (cf : Cfg K) (p : Pt K d → XF K) (t : ℕ) (it : Iter K d) (T : Tree K d) :
    iterate cf (fun x => p (x - b)) t it (T.moved b) = (iterate cf p t it T).map fun r => (r.1.moved b, r.2) := by
  unfold iterate
  have hlen : (T.moved b).nodes.length = T.nodes.length := List.length_map _
  rw [hlen, select_moved]
  cases T.select it.rs T.nodes.length 0 [0] 0 with
  | error e => rfl
  | ok r =>
    obtain ⟨P, id⟩ := r
    dsimp only
    rw [getElem_moved]
    cases T.nodes[id]? with
    | none => rfl
    | some n =>
      dsimp only [Option.map]
      rw [sample1_moved, prob1_moved, add_sub_cancel_right, addSample_moved]
      split
      · rfl
      · generalize n.addSample (n.sampler.sample1 it.u) (p (n.sampler.sample1 it.u) / n.sampler.prob1 (n.sampler.sample1 it.u)) = m
        have hT : (⟨(T.moved b).nodes.set id (m.moved b), (T.moved b).leaves⟩ : Tree K d) = Tree.moved b ⟨T.nodes.set id m, T.leaves⟩ := by
          simp [Tree.moved, List.map_set]
        have hN : (m.moved b).N = m.N := rfl
        have hmean : (m.moved b).mean = m.mean := rfl
        rw [hT, totalEv_moved, hN, hmean]
        generalize (m.mean + cf.boost t m.N) / totalEv cf t ⟨T.nodes.set id m, T.leaves⟩ = q
        have hset : (T.moved b).nodes.set id { center := (m.moved b).center, radius := (m.moved b).radius, q := q, left := (m.moved b).left, right := (m.moved b).right, samples := (m.moved b).samples, weights := (m.moved b).weights, N := m.N, ess := (m.moved b).ess } =
            (T.nodes.set id { m with q := q }).map (Node.moved b) := by
          simp only [Tree.moved, List.map_set]
          rfl
        rw [hset, foldl_refresh_moved]
        have hT2 : (⟨(P.dropLast.reverse.foldl refreshQ (T.nodes.set id { m with q := q })).map (Node.moved b), (T.moved b).leaves⟩ : Tree K d) =
          Tree.moved b ⟨P.dropLast.reverse.foldl refreshQ (T.nodes.set id { m with q := q }), T.leaves⟩ := rfl
        rw [hT2, split_moved]
        show (if cf.nMin ≤ m.N ∧ XF.ltb m.ess (XF.fin (cf.essTarget * m.N)) = true then _ else _) = _
        by_cases hif : cf.nMin ≤ m.N ∧ XF.ltb m.ess (XF.fin (cf.essTarget * m.N)) = true
        · rw [if_pos hif, if_pos hif]
          generalize Tree.split _ id it.j p = r
          cases r <;> rfl
        · rw [if_neg hif, if_neg hif]
          rfl

theorem iterations_moved (cf : Cfg K) (p : Pt K d → XF K) : ∀ (its : List (Iter K d)) (t : ℕ) (S : Sampler K d),
    iterations cf (fun x => p (x - b)) t its (S.moved b) = (iterations cf p t its S).map (Sampler.moved b)
  | [], _, _ => rfl
  | it :: its, t, S => by
    unfold iterations
    have hT : (S.moved b).T = S.T.moved b := rfl
    rw [hT, iterate_moved]
    cases iterate cf p t it S.T with
    | error e => rfl
    | ok r => exact iterations_moved cf p its (t + 1) { S with T := r.1, numQ := S.numQ + 1, numPi := S.numPi + r.2, numQEval := S.numQEval + r.2 }

theorem leafNodes_moved (T : Tree K d) : (T.moved b).leafNodes = T.leafNodes.map (Node.moved b) := by
  unfold Tree.leafNodes
  rw [List.map_filterMap]
  congr 1
  funext i
  exact getElem_moved b T i

theorem call_moved (cf : Cfg K) (p : Pt K d → XF K) (n : ℕ) (its : ℕ → Iter K d) (S : Sampler K d) :
    importanceSample cf (fun x => p (x - b)) n its (S.moved b) = (importanceSample cf p n its S).map (Sampler.moved b) := by
  have hl : (S.moved b).samples.length = S.samples.length := List.length_map _
  unfold importanceSample
  rw [hl, iterations_moved]
  cases iterations cf p S.samples.length ((List.range (n - S.samples.length)).map its) S with
  | error e => rfl
  | ok S1 =>
    have hm : (S1.moved b).T.leafNodes = S1.T.leafNodes.map (Node.moved b) := leafNodes_moved b S1.T
    have hw : ((S1.T.leafNodes.map (Node.moved b)).map Node.mean) = (S1.T.leafNodes.map Node.mean) := by
      rw [List.map_map]
      exact List.map_congr_left fun n _ => rfl
    have hg : ∀ (r : List (Pt K d × Pt K d) × List (XF K)), getSamples { S1.moved b with model := (r.1.map fun r => (r.1 + b, r.2), r.2) } =
        (getSamples { S1 with model := r }).moved b := by
      intro r
      unfold getSamples Sampler.moved
      dsimp only
      rw [leafNodes_moved, List.flatMap_map, List.flatMap_map, List.map_flatMap]
      congr 2
      funext n
      show ((n.samples.map (List.map (· + b))).getD []) = _
      cases n.samples <;> rfl
    simp only [Except.map, updateModel]
    rw [hm, hw, List.length_map]
    cases setWeights S1.T.leafNodes.length (S1.T.leafNodes.map Node.mean) with
    | error e => rfl
    | ok w =>
      dsimp only
      congr 1
      rw [← hg]
      dsimp only
      rw [List.map_map, List.map_map]
      rfl

theorem reset_moved (lo hi : Pt K d) : reset (lo + b) (hi + b) = (reset lo hi).moved b := by
  have h1 : (fun i => ((hi + b) i + (lo + b) i) / 2 : Pt K d) = (fun i => (hi i + lo i) / 2) + b := by
    funext i
    simp only [Pi.add_apply]
    ring
  have h2 : (fun i => ((hi + b) i - (lo + b) i) / 2 : Pt K d) = (fun i => (hi i - lo i) / 2) := by
    funext i
    simp only [Pi.add_apply]
    ring
  unfold reset Tree.init
  rw [h1, h2]
  rfl

end moving
end HiD

/-- **C152** for HiDaisee: any number of calls after the construction. -/
theorem C152_hidaisee {K : Type*} [Field K] [LinearOrder K] [IsStrictOrderedRing K] {d : ℕ} (b : Pt K d) (cf : HiD.Cfg K)
    (p : Pt K d → XF K) (lo hi : Pt K d) (calls : List (ℕ × (ℕ → HiD.Iter K d))) :
    (calls.foldlM (fun S a => HiD.importanceSample cf (fun x => p (x - b)) a.1 a.2 S) (HiD.reset (lo + b) (hi + b))).map
        (fun S => (S.samples, S.weights, S.model, S.numPi, S.numQEval, S.numQ)) =
      (calls.foldlM (fun S a => HiD.importanceSample cf p a.1 a.2 S) (HiD.reset lo hi)).map
        fun S => (S.samples.map (· + b), S.weights, (S.model.1.map (fun r => (r.1 + b, r.2)), S.model.2), S.numPi, S.numQEval, S.numQ) := by
  rw [HiD.reset_moved]
  generalize HiD.reset lo hi = S
  induction calls generalizing S with
  | nil => rfl
  | cons a calls ih =>
    rw [List.foldlM_cons, List.foldlM_cons, HiD.call_moved]
    cases HiD.importanceSample cf p a.1 a.2 S with
    | error e => rfl
    | ok S' => exact ih S'

/-- The runs of the theorem can be successful calls with several splits (the run of `C151_refuted`). -/
example : ∃ (its : ℕ → HiD.Iter ℝ 1) (S S' : HiD.Sampler ℝ 1),
    HiD.importanceSample ⟨HiD.realBoost 1, 1, 3/5⟩ (fun x => .fin (HiD.stepDensity x)) 4 its (HiD.reset ![-1] ![1]) = .ok S ∧
    HiD.importanceSample ⟨HiD.realBoost 1, 1, 3/5⟩ (fun x => .fin (HiD.stepDensity (x - ![7]))) 4 its (HiD.reset (![-1] + ![7]) (![1] + ![7])) = .ok S' ∧
    S'.samples = S.samples.map (· + ![7]) ∧ S.samples.length = 4 := by
  obtain ⟨its, S, -, h, -, hS, -⟩ := HiD.C151_refuted 1 one_pos
  have h' := HiD.call_moved ![7] ⟨HiD.realBoost 1, 1, 3/5⟩ (fun x => .fin (HiD.stepDensity x)) 4 its (HiD.reset ![-1] ![1])
  rw [h, ← HiD.reset_moved] at h'
  exact ⟨its, S, _, h, h', rfl, by rw [hS]; rfl⟩

end Verif
