import Verif.Model.TreePyramid
import Verif.Props.ScaleHiD

/-!
# C151 for the tree pyramid sampler (method "simple", haar kernel)

Two samplers are given the same random outcomes and clock readings; one of them sees the density `p`, the other one `c * p`
with a constant `c > 0`.
-/

set_option linter.unusedSectionVars false
set_option autoImplicit false

namespace Verif

/-! ### Specification -/

/-- One call: the requested number of samples, the generator output for the first root sample, and the outcomes of the
iterations. -/
abbrev TPRequest (K : Type*) (d : ℕ) := ℕ × Pt K d × List (TPIter K d)

/-- What a caller sees after one call that did not raise: the returned samples and weights (`none` when the script ended
before the call returned), the boxes of the proposal, and the three counters. -/
structure TPSeen (K : Type*) (d : ℕ) where
  out : Option (List (Pt K d) × List (XF K))
  boxes : List (Pt K d × K)
  counters : ℕ × ℕ × ℕ

/-- Several calls of the same object one after the other, up to the first exception; the list of what a caller sees. -/
def tpSession {K : Type*} [Field K] [LinearOrder K] {d : ℕ} (cfg : TPConfig K) (target : Pt K d → XF K) :
    List (TPRequest K d) → TPSampler K d → List (Except PyErr (TPSeen K d))
  | [], _ => []
  | k :: ks, S =>
    match TPSampler.importanceSampleSimple cfg target k.1 k.2.1 k.2.2 S with
    | .error e => [.error e]
    | .ok (S', out) => .ok ⟨out, S'.model.1, (S'.numQ, S'.numPi, S'.numQEvals)⟩ :: tpSession cfg target ks S'

/-- Two results of a computation that may raise: the same exception, or values in a relation. -/
inductive SameOutcome {α β : Type*} (R : α → β → Prop) : Except PyErr α → Except PyErr β → Prop
  | raised (e : PyErr) : SameOutcome R (.error e) (.error e)
  | value {a : α} {b : β} (h : R a b) : SameOutcome R (.ok a) (.ok b)

/-- The same samples, boxes and counters; if `raw`, the weights are all multiplied by `c`. -/
def TPSeen.Same {K : Type*} [Field K] [LinearOrder K] {d : ℕ} (c : K) (raw : Prop) (o' o : TPSeen K d) : Prop :=
  o'.boxes = o.boxes ∧ o'.counters = o.counters ∧ o'.out.map Prod.fst = o.out.map Prod.fst ∧
    (raw → o'.out.map Prod.snd = o.out.map fun r => r.2.map fun w => XF.fin c * w)

/-! ### Proof -/

namespace SameOutcome
universe u v
variable {α γ : Type u} {β δ : Type v} {R : α → β → Prop} {Q : γ → δ → Prop}

theorem bind {x : Except PyErr α} {y : Except PyErr β} (h : SameOutcome R x y) {f : α → Except PyErr γ} {g : β → Except PyErr δ}
    (hfg : ∀ a b, R a b → SameOutcome Q (f a) (g b)) : SameOutcome Q (x >>= f) (y >>= g) := by
  cases h with
  | raised e => exact .raised e
  | value h => exact hfg _ _ h

theorem foldlM {ι : Type*} {f : α → ι → Except PyErr α} {g : β → ι → Except PyErr β}
    (hfg : ∀ a b i, R a b → SameOutcome R (f a i) (g b i)) : ∀ (l : List ι) {a : α} {b : β}, R a b →
      SameOutcome R (l.foldlM f a) (l.foldlM g b)
  | [], _, _, h => .value h
  | i :: l, a, b, h => by
    rw [List.foldlM_cons, List.foldlM_cons]
    exact (hfg a b i h).bind fun a b h => foldlM hfg l h

end SameOutcome

section
variable {K : Type*} [Field K] [LinearOrder K] [IsStrictOrderedRing K] {d : ℕ} {c : K}

theorem XF.scale_mul_fin (hc : 0 < c) (a : XF K) (b : K) : XF.fin c * a * XF.fin b = XF.fin c * (a * XF.fin b) := by
  cases a with
  | nan => simp
  | fin x => simp only [XF.fin_mul, mul_assoc]
  | pinf =>
    rw [XF.fin_mul_pinf hc]
    show XF.infMul b = XF.fin c * XF.infMul b
    rw [XF.fin_mul_infMul hc]
  | ninf =>
    rw [XF.fin_mul_ninf hc]
    show XF.neg (XF.infMul b) = XF.fin c * XF.neg (XF.infMul b)
    unfold XF.infMul
    split
    · exact (XF.fin_mul_ninf hc).symm
    · split
      · exact (XF.fin_mul_pinf hc).symm
      · simp [XF.neg]

theorem XF.scale_ltb (hc : 0 < c) (a b : XF K) : XF.ltb (XF.fin c * a) (XF.fin c * b) = XF.ltb a b := by
  cases a <;> cases b <;> simp only [XF.fin_mul_pinf hc, XF.fin_mul_ninf hc, XF.fin_mul, XF.mul_nan] <;>
    first | rfl | (simp only [XF.ltb, mul_lt_mul_iff_right₀ hc])

theorem XF.scale_pos (hc : 0 < c) (a : XF K) : XF.ltb (XF.fin 0) (XF.fin c * a) = XF.ltb (XF.fin 0) a := by
  have h := XF.scale_ltb hc (XF.fin 0) a
  rwa [XF.fin_mul, mul_zero] at h

/-- The node of the sampler that sees the scaled density. -/
def TPNode.scaled (c : K) (n : TPNode K d) : TPNode K d :=
  { n with weight := XF.fin c * n.weight
           value := XF.fin c * n.value
           weightHist := n.weightHist.map fun h => h.map fun w => XF.fin c * w }

/-- The two trees: the nodes are scaled, the cached weights only have the same number of entries. -/
structure TPTree.Sim (c : K) (T' T : TPTree K d) : Prop where
  nodes : T'.nodes = T.nodes.map (TPNode.scaled c)
  leaves : T'.leaves = T.leaves
  centers : T'.centers = T.centers
  radii : T'.radii = T.radii
  samples : T'.samples = T.samples
  weights : T'.weights.length = T.weights.length
  leavesIdx : T'.leavesIdx = T.leavesIdx
  mask : T.leavesIdx.length = T.weights.length

namespace TPTree

theorem Sim.get {T' T : TPTree K d} (h : Sim c T' T) (p : ℕ) : T'.nodes[p]? = (T.nodes[p]?).map (TPNode.scaled c) := by
  rw [h.nodes, List.getElem?_map]

theorem sample_scaled (n : TPNode K d) (x : Pt K d) : (n.scaled c).sample x = (n.sample x).scaled c := rfl

theorem weigh_scaled (hc : 0 < c) (n : TPNode K d) (p q : Pt K d → XF K) :
    (n.scaled c).weigh (fun x => XF.fin c * p x) q = (n.weigh p q).scaled c := by
  have hw : XF.fin c * p n.coords / q n.coords = XF.fin c * (p n.coords / q n.coords) := XF.scale_div hc _ _
  have hh : (n.weightHist.map fun h => h.map fun w => XF.fin c * w).getD [] ++ [XF.fin c * (p n.coords / q n.coords)] =
      (n.weightHist.getD [] ++ [p n.coords / q n.coords]).map fun w => XF.fin c * w := by
    rw [List.map_append]
    cases n.weightHist <;> rfl
  unfold TPNode.weigh TPNode.scaled
  dsimp only
  rw [hw, hh, XF.scale_sum hc, List.length_map, XF.scale_div hc, XF.scale_mul_fin hc]
  rfl

theorem modify_scaled (l : List (TPNode K d)) (p : ℕ) {f g : TPNode K d → TPNode K d} (h : ∀ n, g (n.scaled c) = (f n).scaled c) :
    (l.map (TPNode.scaled c)).modify p g = (l.modify p f).map (TPNode.scaled c) := by
  apply List.ext_getElem?
  intro i
  rw [List.getElem?_modify, List.getElem?_map, List.getElem?_map, List.getElem?_modify]
  cases l[i]? with
  | none => rfl
  | some n =>
    by_cases hi : p = i
    · simp [hi, h]
    · simp [hi]

theorem shouldExpand_scaled (hc : 0 < c) (n : TPNode K d) (e : Option K) (m : ℕ) :
    shouldExpand (n.scaled c) e m = shouldExpand n e m := by
  unfold shouldExpand TPNode.scaled
  cases e with
  | none => rfl
  | some t =>
    cases hw : n.weightHist with
    | none => rfl
    | some ws =>
      dsimp only [Option.map_some]
      rw [HiD.ess_scaled hc, List.length_map]

theorem newNodes_scaled (hc : 0 < c) {T' T : TPTree K d} (h : Sim c T' T) (n : TPNode K d) :
    newNodes T' (n.scaled c) = (newNodes T n).map (TPNode.scaled c) := by
  unfold newNodes
  rw [List.map_map]
  apply List.map_congr_left
  intro ⟨x, i⟩ _
  rw [h.nodes, h.leaves, List.length_map]
  show TPNode.new x (n.radius / 2) _ _ _ (XF.fin c * n.weight / _) = TPNode.scaled c (TPNode.new _ _ _ _ _ _)
  rw [XF.scale_div hc]
  unfold TPNode.new TPNode.scaled
  dsimp only
  rw [XF.scale_mul_fin hc]
  rfl

theorem takeSlot_scaled (j : ℤ) (l : List (TPNode K d)) : takeSlot j (l.map (TPNode.scaled c)) = (takeSlot j l).map (TPNode.scaled c) := by
  cases l <;> rfl

theorem insertChildren_sim (hc : 0 < c) {T' T : TPTree K d} (h : Sim c T' T) (p : ℕ) (n : TPNode K d) :
    Sim c (insertChildren T' p (n.scaled c)).1 (insertChildren T p n).1 ∧
      (insertChildren T' p (n.scaled c)).2 = (insertChildren T p n).2 := by
  have hn := newNodes_scaled hc h n
  have hl : T'.nodes.length = T.nodes.length := by rw [h.nodes, List.length_map]
  have hl' : (newNodes T' (n.scaled c)).length = (newNodes T n).length := by rw [hn, List.length_map]
  constructor
  · constructor
    · show (T'.nodes ++ takeSlot n.leafIdx (newNodes T' (n.scaled c))).set p _ = ((T.nodes ++ takeSlot n.leafIdx (newNodes T n)).set p _).map _
      rw [List.map_set, List.map_append, ← takeSlot_scaled, ← hn, h.nodes, List.length_map, hl']
      rfl
    · show T'.leaves.set n.leafIdx.toNat T'.nodes.length ++ _ = T.leaves.set n.leafIdx.toNat T.nodes.length ++ _
      rw [h.leaves, hl, hl']
    · show T'.centers ++ _ = T.centers ++ _
      rw [h.centers]
      rfl
    · show T'.radii ++ _ = T.radii ++ _
      rw [h.radii, hl']
      rfl
    · show T'.samples ++ _ = T.samples ++ _
      rw [h.samples, hl']
    · show (T'.weights ++ _).length = (T.weights ++ _).length
      rw [List.length_append, List.length_append, h.weights, hl', List.length_replicate]
    · show (T'.leavesIdx ++ _).set _ _ = (T.leavesIdx ++ _).set _ _
      rw [h.leavesIdx, hl']
      rfl
    · show ((T.leavesIdx ++ _).set _ _).length = (T.weights ++ _).length
      rw [List.length_set, List.length_append, List.length_append, h.mask, List.length_replicate, List.length_replicate]
  · show List.range' T'.nodes.length _ = List.range' T.nodes.length _
    rw [hl, hl']

theorem expand_sim (hc : 0 < c) {T' T : TPTree K d} (h : Sim c T' T) (p : ℕ) (e : Option K) (m : ℕ) :
    SameOutcome (fun r' r => Sim c r'.1 r.1 ∧ r'.2 = r.2) (expand T' p e m) (expand T p e m) := by
  unfold expand
  rw [h.get]
  cases T.nodes[p]? with
  | none => exact .raised _
  | some n =>
    dsimp only [Option.map_some]
    have hi : (n.scaled c).isLeaf = n.isLeaf := rfl
    rw [hi, shouldExpand_scaled hc]
    by_cases hl : n.isLeaf = false
    · rw [if_pos hl, if_pos hl]
      exact .raised _
    · rw [if_neg hl, if_neg hl]
      cases shouldExpand n e m with
      | error x => exact .raised _
      | ok b =>
        cases b with
        | false => exact .value ⟨h, rfl⟩
        | true =>
          have hs := insertChildren_sim hc h p n
          exact .value ⟨hs.1, congrArg some hs.2⟩

theorem expandNodes_sim (hc : 0 < c) (e : Option K) (m k : ℕ) : ∀ (ps : List ℕ) {T' T : TPTree K d} (acc : List ℕ), Sim c T' T →
    SameOutcome (fun r' r => Sim c r'.1 r.1 ∧ r'.2 = r.2) (expandNodes e m k T' ps acc) (expandNodes e m k T ps acc)
  | [], T', T, acc, h => by
    rw [expandNodes, expandNodes]
    exact .value ⟨h, rfl⟩
  | p :: ps, T', T, acc, h => by
    rw [expandNodes, expandNodes]
    generalize hx : expand T' p e m = x
    generalize hy : expand T p e m = y
    have hs := expand_sim hc h p e m
    rw [hx, hy] at hs
    cases hs with
    | raised e => exact .raised _
    | @value a b hab =>
      obtain ⟨a1, a2⟩ := a
      obtain ⟨b1, b2⟩ := b
      obtain ⟨hab, rfl⟩ : Sim c a1 b1 ∧ a2 = b2 := hab
      cases a2 with
      | none => exact expandNodes_sim hc e m k ps _ hab
      | some refs =>
        dsimp only
        by_cases hk : k < (acc ++ refs).length
        · rw [if_pos hk, if_pos hk]
          exact .value ⟨hab, rfl⟩
        · rw [if_neg hk, if_neg hk]
          exact expandNodes_sim hc e m k ps _ hab

theorem sampleNode_sim {T' T : TPTree K d} (h : Sim c T' T) (p : ℕ) (x : Pt K d) :
    SameOutcome (Sim c) (T'.sampleNode p x) (T.sampleNode p x) := by
  unfold sampleNode
  rw [h.get]
  cases T.nodes[p]? with
  | none => exact .raised _
  | some n =>
    dsimp only [Option.map_some]
    rw [h.samples]
    show SameOutcome _ (if n.nodeIdx < _ then _ else _) _
    by_cases hi : n.nodeIdx < T.samples.length
    · rw [if_pos hi, if_pos hi]
      refine .value ⟨?_, h.leaves, h.centers, h.radii, rfl, h.weights, h.leavesIdx, h.mask⟩
      show T'.nodes.modify _ _ = _
      rw [h.nodes]
      exact modify_scaled _ _ fun n => sample_scaled n x
    · rw [if_neg hi, if_neg hi]
      exact .raised _

theorem weighNode_sim (hc : 0 < c) {T' T : TPTree K d} (h : Sim c T' T) (p : ℕ) (t q : Pt K d → XF K) :
    SameOutcome (Sim c) (T'.weighNode p (fun x => XF.fin c * t x) q) (T.weighNode p t q) := by
  unfold weighNode
  rw [h.get]
  cases T.nodes[p]? with
  | none => exact .raised _
  | some n =>
    dsimp only [Option.map_some]
    rw [h.weights]
    show SameOutcome _ (if n.nodeIdx < _ then _ else _) _
    by_cases hi : n.nodeIdx < T.weights.length
    · rw [if_pos hi, if_pos hi]
      refine .value ⟨?_, h.leaves, h.centers, h.radii, h.samples, ?_, h.leavesIdx, ?_⟩
      · show T'.nodes.modify _ _ = _
        rw [h.nodes]
        exact modify_scaled _ _ fun n => weigh_scaled hc n t q
      · show (T'.weights.set _ _).length = (T.weights.set _ _).length
        rw [List.length_set, List.length_set, h.weights]
      · show T.leavesIdx.length = (T.weights.set _ _).length
        rw [List.length_set, h.mask]
    · rw [if_neg hi, if_neg hi]
      exact .raised _

theorem maskSelect_len {α β : Type*} : ∀ (m : List Bool) (l : List α) (l' : List β), l.length = l'.length →
    (maskSelect m l).length = (maskSelect m l').length
  | [], _, _, _ => by simp [maskSelect]
  | true :: m, [], [], _ => rfl
  | false :: m, [], [], _ => rfl
  | true :: m, _ :: l, _ :: l', h => by
    rw [maskSelect, maskSelect, List.length_cons, List.length_cons, maskSelect_len m l l' (by simpa using h)]
  | false :: m, _ :: l, _ :: l', h => by
    rw [maskSelect, maskSelect, maskSelect_len m l l' (by simpa using h)]

theorem selfNormalize_weights_len (T : TPTree K d) (h : T.leavesIdx.length = T.weights.length) :
    T.selfNormalize.weights.length = T.weights.length := by
  unfold selfNormalize
  dsimp only
  split
  · simp [maskUpdate, h]
  · rfl

theorem selfNormalize_sim {T' T : TPTree K d} (h : Sim c T' T) : Sim c T'.selfNormalize T.selfNormalize := by
  have e : ∀ T : TPTree K d, T.selfNormalize = { T with weights := T.selfNormalize.weights } := by
    intro T
    unfold selfNormalize
    dsimp only
    split <;> rfl
  have h1 := selfNormalize_weights_len T' (by rw [h.leavesIdx, h.mask, h.weights])
  have h2 := selfNormalize_weights_len T h.mask
  rw [e T', e T]
  exact ⟨h.nodes, h.leaves, h.centers, h.radii, h.samples, by rw [h1, h2, h.weights], h.leavesIdx, by rw [h2]; exact h.mask⟩

theorem maskSelect_map {α β : Type*} (f : α → β) : ∀ (m : List Bool) (l : List α), maskSelect m (l.map f) = (maskSelect m l).map f
  | [], _ => rfl
  | true :: m, [] => rfl
  | false :: m, [] => rfl
  | true :: m, a :: l => by rw [List.map_cons, maskSelect, maskSelect, maskSelect_map f m l, List.map_cons]
  | false :: m, a :: l => by rw [List.map_cons, maskSelect, maskSelect, maskSelect_map f m l]

/-- One write of the histories of a leaf to the returned arrays (tree_pyramid.py:699-702). -/
def put (acc : List (Pt K d) × List (XF K)) (hi : (List (Pt K d) × List (XF K)) × ℕ) :
    Except PyErr (List (Pt K d) × List (XF K)) :=
  if hi.1.1.length = hi.1.2.length then do
    let s ← writeSlice acc.1 hi.2 hi.1.1
    let w ← writeSlice acc.2 hi.2 hi.1.2
    return (s, w)
  else .error .value

/-- The weights of a pair of arrays multiplied by `c`. -/
def times (c : K) (o : List (Pt K d) × List (XF K)) : List (Pt K d) × List (XF K) := (o.1, o.2.map fun w => XF.fin c * w)

theorem writeSlice_map {α β : Type*} (f : α → β) (l v : List α) (i : ℕ) :
    writeSlice (l.map f) i (v.map f) = (writeSlice l i v).map (List.map f) := by
  unfold writeSlice
  rw [List.length_map, List.length_map]
  split
  · simp [Except.map]
  · rfl

theorem put_times (acc : List (Pt K d) × List (XF K)) (h : List (Pt K d) × List (XF K)) (i : ℕ) :
    put (times c acc) (times c h, i) = (put acc (h, i)).map (times c) := by
  unfold put times
  dsimp only
  rw [List.length_map, writeSlice_map]
  split
  · cases writeSlice acc.1 i h.1 with
    | error e => rfl
    | ok s =>
      cases writeSlice acc.2 i h.2 with
      | error e => rfl
      | ok w => rfl
  · rfl

theorem puts_times : ∀ (hs : List ((List (Pt K d) × List (XF K)) × ℕ)) (acc : List (Pt K d) × List (XF K)),
    (hs.map fun h => (times c h.1, h.2)).foldlM put (times c acc) = (hs.foldlM put acc).map (times c)
  | [], _ => rfl
  | (h, i) :: hs, acc => by
    rw [List.map_cons, List.foldlM_cons, List.foldlM_cons, put_times]
    cases put acc (h, i) with
    | error e => rfl
    | ok a => exact puts_times hs a

theorem mapM_opt {α β γ : Type*} (f : α → Option β) (g : β → γ) : ∀ l : List α,
    l.mapM (fun a => (f a).map g) = (l.mapM f).map (List.map g)
  | [] => rfl
  | a :: l => by
    rw [List.mapM_cons, List.mapM_cons, mapM_opt f g l]
    cases f a with
    | none => rfl
    | some b => cases l.mapM f <;> rfl

/-- The histories of a leaf object. -/
def hist (T : TPTree K d) (p : ℕ) : Option (List (Pt K d) × List (XF K)) :=
  (T.nodes[p]?).bind fun n => (n.coordsHist.bind fun ch => n.weightHist.map fun wh => (ch, wh))

/-- The end of the reading of the samples: rows with a positive weight. -/
def positive (o : List (Pt K d) × List (XF K)) : List (Pt K d) × List (XF K) :=
  (maskSelect (o.2.map fun v => XF.ltb (XF.fin 0) v) o.1, maskSelect (o.2.map fun v => XF.ltb (XF.fin 0) v) o.2)

theorem positive_times (hc : 0 < c) (o : List (Pt K d) × List (XF K)) : positive (times c o) = times c (positive o) := by
  have hm : ((o.2.map fun w => XF.fin c * w).map fun v => XF.ltb (XF.fin 0) v) = o.2.map fun v => XF.ltb (XF.fin 0) v := by
    rw [List.map_map]
    exact List.map_congr_left fun w _ => XF.scale_pos hc w
  unfold positive times
  dsimp only
  rw [hm, maskSelect_map]

/-- The reading of the samples from the histories of the leaves. -/
def collect (hs : List (List (Pt K d) × List (XF K))) : Except PyErr (List (Pt K d) × List (XF K)) :=
  (hs.zipIdx.foldlM put (List.replicate (hs.map fun h => h.2.length).sum (fun _ => 0),
    List.replicate (hs.map fun h => h.2.length).sum (XF.fin 0))).map positive

theorem collect_times (hc : 0 < c) (hs : List (List (Pt K d) × List (XF K))) :
    collect (hs.map (times c)) = (collect hs).map (times c) := by
  have hn : ((hs.map (times c)).map fun h => h.2.length) = hs.map fun h => h.2.length := by
    rw [List.map_map]
    apply List.map_congr_left
    intro h _
    simp [times]
  have hz : (hs.map (times c)).zipIdx = hs.zipIdx.map fun h => (times c h.1, h.2) := by
    rw [List.zipIdx_map]
    rfl
  have hi : ∀ n : ℕ, ((List.replicate n (fun _ => 0), List.replicate n (XF.fin 0)) : List (Pt K d) × List (XF K)) =
      times c (List.replicate n (fun _ => 0), List.replicate n (XF.fin 0)) := by
    intro n
    simp [times]
  unfold collect
  rw [hn, hz, hi, puts_times, ← hi]
  cases List.foldlM put _ hs.zipIdx with
  | error e => rfl
  | ok o => exact congrArg Except.ok (positive_times hc o)

theorem getSamples_eq (T : TPTree K d) (t : K) (ht : ¬ 1 < t) : T.getSamples (some t) =
    (match T.leaves.mapM T.hist with
     | none => .error .type
     | some hs => collect hs) := by
  unfold getSamples
  dsimp only
  rw [if_neg ht]
  show (match T.leaves.mapM T.hist with | none => _ | some hs => _) = _
  cases T.leaves.mapM T.hist with
  | none => rfl
  | some hs =>
    dsimp only
    unfold collect
    show (match List.foldlM put _ hs.zipIdx with | .error e => _ | .ok (s, w) => _) = _
    cases List.foldlM put (List.replicate (hs.map fun h => h.2.length).sum (fun _ => 0),
      List.replicate (hs.map fun h => h.2.length).sum (XF.fin 0)) hs.zipIdx <;> rfl

/-- The same samples, equally many weights; if `raw`, the weights are multiplied by `c`. -/
def Read (c : K) (raw : Prop) (o' o : List (Pt K d) × List (XF K)) : Prop :=
  o'.1 = o.1 ∧ o'.2.length = o.2.length ∧ (raw → o'.2 = o.2.map fun w => XF.fin c * w)

theorem getSamples_sim (hc : 0 < c) {T' T : TPTree K d} (h : Sim c T' T) (e : Option K) :
    SameOutcome (Read c (∀ t, e = some t → t ≤ 1)) (T'.getSamples e) (T.getSamples e) := by
  cases e with
  | none => exact .raised _
  | some t =>
    by_cases ht : 1 < t
    · unfold getSamples
      dsimp only
      rw [if_pos ht, if_pos ht, h.leavesIdx, h.samples]
      exact .value ⟨rfl, maskSelect_len _ _ _ h.weights, fun hr => absurd (hr t rfl) (not_le.mpr ht)⟩
    · rw [getSamples_eq _ _ ht, getSamples_eq _ _ ht]
      have hh : T'.hist = fun p => (T.hist p).map (times c) := by
        funext p
        unfold hist
        rw [h.get]
        cases T.nodes[p]? with
        | none => rfl
        | some n =>
          dsimp only [Option.map_some, Option.bind_some, TPNode.scaled]
          cases n.coordsHist with
          | none => rfl
          | some ch => cases n.weightHist <;> rfl
      rw [h.leaves, hh, mapM_opt]
      cases T.leaves.mapM T.hist with
      | none => exact .raised _
      | some hs =>
        dsimp only [Option.map_some]
        rw [collect_times hc]
        cases collect hs with
        | error e => exact .raised _
        | ok o => exact .value ⟨rfl, List.length_map _, fun _ => rfl⟩

end TPTree

namespace TPSampler
open TPTree

/-- The two samplers. -/
structure Sim (c : K) (S' S : TPSampler K d) : Prop where
  tree : S'.T.Sim c S.T
  numQ : S'.numQ = S.numQ
  numPi : S'.numPi = S.numPi
  numQEvals : S'.numQEvals = S.numQEvals
  boxes : S'.model.1 = S.model.1

theorem updateModel_sim {S' S : TPSampler K d} (h : Sim c S' S) : SameOutcome (Sim c) S'.updateModel S.updateModel := by
  unfold updateModel setWeights
  dsimp only
  rw [h.tree.leavesIdx, h.tree.centers, h.tree.radii, maskSelect_len S.T.leavesIdx _ _ h.tree.weights]
  split
  · exact .value ⟨selfNormalize_sim h.tree, h.numQ, h.numPi, h.numQEvals, rfl⟩
  · exact .raised _

theorem visit_sim (hc : 0 < c) (t : Pt K d → XF K) (draw : ℕ → Pt K d) {S' S : TPSampler K d} (p : ℕ) (h : Sim c S' S) :
    SameOutcome (Sim c) (visit (fun x => XF.fin c * t x) draw S' p) (visit t draw S p) := by
  unfold visit
  rw [h.tree.get]
  cases S.T.nodes[p]? with
  | none => exact .raised _
  | some n =>
    dsimp only [Option.map_some]
    refine (sampleNode_sim h.tree p _).bind fun T1' T1 h1 => ?_
    refine (weighNode_sim hc h1 p t _).bind fun T2' T2 h2 => ?_
    exact .value ⟨h2, congrArg (· + 1) h.numQ, congrArg (· + 1) h.numPi, congrArg (· + 1) h.numQEvals, h.boxes⟩

theorem initRoot_sim (hc : 0 < c) (t : Pt K d → XF K) (u : Pt K d) {S' S : TPSampler K d} (h : Sim c S' S) :
    SameOutcome (Sim c) (initRoot (fun x => XF.fin c * t x) u S') (initRoot t u S) := by
  unfold initRoot
  rw [h.tree.get]
  cases S.T.nodes[0]? with
  | none => exact .raised _
  | some n =>
    dsimp only [Option.map_some]
    have hi : ((n.scaled c).histDeleted = false ∧ (n.scaled c).weightHist = none) ↔ (n.histDeleted = false ∧ n.weightHist = none) := by
      show (n.histDeleted = false ∧ (n.weightHist.map _) = none) ↔ _
      rw [Option.map_eq_none_iff]
    by_cases hn : n.histDeleted = false ∧ n.weightHist = none
    · rw [if_pos hn, if_pos (hi.mpr hn)]
      refine (sampleNode_sim h.tree 0 _).bind fun T1' T1 h1 => ?_
      refine (weighNode_sim hc h1 0 t _).bind fun T2' T2 h2 => ?_
      exact updateModel_sim ⟨h2, congrArg (· + 1) h.numQ, h.numPi, h.numQEvals, h.boxes⟩
    · rw [if_neg hn, if_neg fun x => hn (hi.mp x)]
      exact .value h

/-- The value by which the leaves are sorted. -/
def nodeValue (T : TPTree K d) (p : ℕ) : XF K :=
  match T.nodes[p]? with
  | some n => n.value
  | none => XF.nan

theorem insertionSort_iff {α : Type*} {r r' : α → α → Prop} [i : DecidableRel r] [i' : DecidableRel r']
    (h : ∀ a b, r a b ↔ r' a b) (l : List α) : l.insertionSort r = l.insertionSort r' := by
  obtain rfl : r = r' := funext fun a => funext fun b => propext (h a b)
  obtain rfl : i = i' := Subsingleton.elim _ _
  rfl

theorem sortedLeaves_sim (hc : 0 < c) {T' T : TPTree K d} (h : T'.Sim c T) : sortedLeaves T' = sortedLeaves T := by
  have hv : ∀ p : ℕ, nodeValue T' p = XF.fin c * nodeValue T p := by
    intro p
    unfold nodeValue
    rw [h.get]
    cases T.nodes[p]? with
    | none => simp
    | some n => rfl
  unfold sortedLeaves
  dsimp only
  rw [h.leaves]
  exact insertionSort_iff (fun a b => by
    show XF.ltb (nodeValue T' a) (nodeValue T' b) = false ↔ XF.ltb (nodeValue T a) (nodeValue T b) = false
    rw [hv, hv, XF.scale_ltb hc]) _

theorem iterate_sim (hc : 0 < c) (cfg : TPConfig K) (hl : cfg.leafResampling = false) (t : Pt K d → XF K) (it : TPIter K d)
    {S' S : TPSampler K d} (h : Sim c S' S) :
    SameOutcome (Sim c) (iterate cfg (fun x => XF.fin c * t x) it S') (iterate cfg t it S) := by
  unfold iterate
  rw [sortedLeaves_sim hc h.tree]
  refine (expandNodes_sim hc cfg.essTarget cfg.nMin cfg.parallel _ [] h.tree).bind fun r' r hr => ?_
  obtain ⟨T1', new'⟩ := r'
  obtain ⟨T1, new⟩ := r
  obtain ⟨hT, rfl⟩ : T1'.Sim c T1 ∧ new' = new := hr
  dsimp only
  refine (SameOutcome.foldlM (fun a b p hab => visit_sim hc t it.draw p hab) new'
    (show Sim c { S' with T := T1' } { S with T := T1 } from ⟨hT, h.numQ, h.numPi, h.numQEvals, h.boxes⟩)).bind fun S2' S2 h2 => ?_
  rw [hl]
  exact .value h2

theorem loop_sim (hc : 0 < c) (cfg : TPConfig K) (hl : cfg.leafResampling = false) (t : Pt K d → XF K) (n : ℕ) :
    ∀ (its : List (TPIter K d)) (late : Bool) {S' S : TPSampler K d}, Sim c S' S →
      SameOutcome (fun r' r => Sim c r'.1 r.1 ∧ r'.2 = r.2) (loop cfg (fun x => XF.fin c * t x) n late its S')
        (loop cfg t n late its S)
  | [], late, S', S, h => by
    rw [loop, loop]
    refine (getSamples_sim hc h.tree cfg.essTarget).bind fun o' o ho => ?_
    dsimp only
    rw [ho.2.1]
    exact .value ⟨h, rfl⟩
  | it :: its, late, S', S, h => by
    rw [loop, loop]
    refine (getSamples_sim hc h.tree cfg.essTarget).bind fun o' o ho => ?_
    dsimp only
    rw [ho.2.1]
    split
    · refine (iterate_sim hc cfg hl t it h).bind fun S1' S1 h1 => ?_
      exact loop_sim hc cfg hl t n its it.late h1
    · exact .value ⟨h, rfl⟩

theorem simple_sim (hc : 0 < c) (cfg : TPConfig K) (hl : cfg.leafResampling = false) (t : Pt K d → XF K) (n : ℕ) (u0 : Pt K d)
    (its : List (TPIter K d)) {S' S : TPSampler K d} (h : Sim c S' S) :
    SameOutcome (fun r' r => Sim c r'.1 r.1 ∧ (r'.2 = none ∧ r.2 = none ∨
        ∃ o' o, r'.2 = some o' ∧ r.2 = some o ∧ Read c (∀ t, cfg.essTarget = some t → t ≤ 1) o' o))
      (importanceSampleSimple cfg (fun x => XF.fin c * t x) n u0 its S') (importanceSampleSimple cfg t n u0 its S) := by
  unfold importanceSampleSimple
  refine (initRoot_sim hc t u0 h).bind fun S0' S0 h0 => ?_
  refine (loop_sim hc cfg hl t n its false h0).bind fun r' r hr => ?_
  obtain ⟨S1', b'⟩ := r'
  obtain ⟨S1, b⟩ := r
  obtain ⟨h1, rfl⟩ : Sim c S1' S1 ∧ b' = b := hr
  cases b' with
  | false => exact .value ⟨h1, Or.inl ⟨rfl, rfl⟩⟩
  | true =>
    dsimp only
    refine (updateModel_sim h1).bind fun S2' S2 h2 => ?_
    refine (getSamples_sim hc h2.tree cfg.essTarget).bind fun o' o ho => ?_
    exact .value ⟨h2, Or.inr ⟨o', o, rfl, rfl, ho⟩⟩

theorem session_sim (hc : 0 < c) (cfg : TPConfig K) (hl : cfg.leafResampling = false) (t : Pt K d → XF K) :
    ∀ (ks : List (TPRequest K d)) {S' S : TPSampler K d}, Sim c S' S →
      List.Forall₂ (SameOutcome (TPSeen.Same c (∀ t, cfg.essTarget = some t → t ≤ 1)))
        (tpSession cfg (fun x => XF.fin c * t x) ks S') (tpSession cfg t ks S)
  | [], _, _, _ => .nil
  | k :: ks, S', S, h => by
    rw [tpSession, tpSession]
    have hs := simple_sim hc cfg hl t k.1 k.2.1 k.2.2 h
    generalize importanceSampleSimple cfg (fun x => XF.fin c * t x) k.1 k.2.1 k.2.2 S' = x at hs ⊢
    generalize importanceSampleSimple cfg t k.1 k.2.1 k.2.2 S = y at hs ⊢
    cases hs with
    | raised e => exact .cons (.raised e) .nil
    | @value a b hab =>
      obtain ⟨S1', o'⟩ := a
      obtain ⟨S1, o⟩ := b
      obtain ⟨h1, ho⟩ := hab
      dsimp only at h1 ho ⊢
      refine .cons (.value ⟨h1.boxes, ?_, ?_⟩) (session_sim hc cfg hl t ks h1)
      · show (S1'.numQ, S1'.numPi, S1'.numQEvals) = (S1.numQ, S1.numPi, S1.numQEvals)
        rw [h1.numQ, h1.numPi, h1.numQEvals]
      · rcases ho with ⟨rfl, rfl⟩ | ⟨o1', o1, rfl, rfl, hr⟩
        · exact ⟨rfl, fun _ => rfl⟩
        · exact ⟨congrArg some hr.1, fun hraw => congrArg some (hr.2.2 hraw)⟩

end TPSampler

/-- **C151** (tree pyramid without leaf resampling). After any number of calls on a new object the samplers seeing `p` and
`c * p` return the same samples, hold proposals over the same boxes and have the same counters; when the effective sample
size target is at most 1 the returned weights are those of `p` times `c`, so that the normalised weights agree. What is
missing: leaf resampling, and the weights for a target above 1 (refuted below). -/
theorem C151_tp_partial (hc : 0 < c) (cfg : TPConfig K) (hl : cfg.leafResampling = false) (p : Pt K d → XF K)
    (dmin dmax : Pt K d) (S : TPSampler K d) (hS : TPSampler.new dmin dmax = .ok S) (calls : List (TPRequest K d)) :
    List.Forall₂ (SameOutcome (TPSeen.Same c (∀ t, cfg.essTarget = some t → t ≤ 1)))
      (tpSession cfg (fun x => XF.fin c * p x) calls S) (tpSession cfg p calls S) := by
  apply TPSampler.session_sim hc cfg hl p calls
  unfold TPSampler.new TPTree.init at hS
  generalize (List.ofFn fun i => (dmax i - dmin i) / 2) = l at hS
  cases l with
  | nil => exact absurd hS (by simp [Except.map])
  | cons r rs =>
    obtain rfl := Except.ok.inj hS
    refine ⟨⟨?_, rfl, rfl, rfl, rfl, rfl, rfl, rfl⟩, rfl, rfl, rfl, rfl⟩
    simp [TPNode.new, TPNode.scaled]

end

/-- The calls of the witnesses below: requests for `n` samples with all draws in the middle, and up to `m` iterations. -/
def tpMiddle (n m : ℕ) : TPRequest ℚ 1 := (n, (fun _ => 1 / 2), List.replicate m ⟨fun _ _ => 1 / 2, fun _ _ => 1 / 2, false⟩)

/-- The samples and weights of the calls of a session. -/
def tpOuts (cfg : TPConfig ℚ) (p : Pt ℚ 1 → XF ℚ) (calls : List (TPRequest ℚ 1)) : List (Option (List ℚ × List (XF ℚ))) :=
  match TPSampler.new (fun _ : Fin 1 => (0 : ℚ)) (fun _ => 1) with
  | .error _ => []
  | .ok S => (tpSession cfg p calls S).map fun
    | .ok o => o.out.map fun r => (r.1.map (· 0), r.2)
    | .error _ => none

-- without leaf resampling, with target 9/10 and at least two samples per leaf: two calls, the samples agree and the weights are doubled
example : tpOuts ⟨some (9 / 10), 2, 1, false⟩ (fun x => XF.fin (1 + x 0)) [tpMiddle 2 9, tpMiddle 3 9] =
      [some ([1 / 2, 1 / 2], [XF.fin (3 / 2), XF.fin (3 / 2)]),
        some ([1 / 2, 1 / 2, 1 / 2], [XF.fin (3 / 2), XF.fin (3 / 2), XF.fin (3 / 2)])] ∧
    tpOuts ⟨some (9 / 10), 2, 1, false⟩ (fun x => XF.fin 2 * XF.fin (1 + x 0)) [tpMiddle 2 9, tpMiddle 3 9] =
      [some ([1 / 2, 1 / 2], [XF.fin 3, XF.fin 3]), some ([1 / 2, 1 / 2, 1 / 2], [XF.fin 3, XF.fin 3, XF.fin 3])] := by
  decide +kernel

-- without leaf resampling, with target 2: the boxes are split, the samples of both calls agree
example : (tpOuts ⟨some 2, 1, 1, false⟩ (fun x => XF.fin (1 + x 0)) [tpMiddle 3 9, tpMiddle 5 9]).map (Option.map Prod.fst) =
      [some [1 / 4, 5 / 8, 7 / 8], some [5 / 8, 1 / 8, 3 / 8, 13 / 16, 15 / 16]] ∧
    (tpOuts ⟨some 2, 1, 1, false⟩ (fun x => XF.fin 2 * XF.fin (1 + x 0)) [tpMiddle 3 9, tpMiddle 5 9]).map (Option.map Prod.fst) =
      [some [1 / 4, 5 / 8, 7 / 8], some [5 / 8, 1 / 8, 3 / 8, 13 / 16, 15 / 16]] := by
  decide +kernel

/-- **C151** (tree pyramid) fails for the weights: without leaf resampling and with an effective sample size target above 1
the second call mixes weights normalised by the first call with new ones, so that for the density `1 + x` on `[0, 1]` and its
double the same samples get different weights, although each list of weights sums to 1. -/
theorem C151_tp_refuted_weights : ∃ (o : Option (List ℚ × List (XF ℚ))) (x : List ℚ) (v v' : List (XF ℚ)),
    tpOuts ⟨some 2, 1, 1, false⟩ (fun x => XF.fin (1 + x 0)) [tpMiddle 3 9, tpMiddle 5 9] = [o, some (x, v)] ∧
    tpOuts ⟨some 2, 1, 1, false⟩ (fun x => XF.fin 2 * XF.fin (1 + x 0)) [tpMiddle 3 9, tpMiddle 5 9] = [o, some (x, v')] ∧
    v.sum = XF.fin 1 ∧ v'.sum = XF.fin 1 ∧ v ≠ v' :=
  ⟨some ([1 / 4, 5 / 8, 7 / 8], [XF.fin (5 / 12), XF.fin (13 / 48), XF.fin (5 / 16)]), [5 / 8, 1 / 8, 3 / 8, 13 / 16, 15 / 16],
    [XF.fin (26 / 131), XF.fin (27 / 131), XF.fin (33 / 131), XF.fin (87 / 524), XF.fin (93 / 524)],
    [XF.fin (13 / 118), XF.fin (27 / 118), XF.fin (33 / 118), XF.fin (87 / 472), XF.fin (93 / 472)], by decide +kernel⟩

/-- **C151** (tree pyramid) fails for the samples when leaves are resampled: the history of the root keeps the unnormalised weight of
its first sample next to normalised ones, so that the criterion for splitting it depends on the scale. For the uniform
density on `[0, 1]` the root is not split, for 100 times that density it is. -/
theorem C151_tp_refuted_resampling : ∃ v v' : List (XF ℚ),
    tpOuts ⟨some (9 / 10), 2, 1, true⟩ (fun _ => XF.fin 1) [tpMiddle 3 9] = [some ([1 / 2, 1 / 2, 1 / 2], v)] ∧
    tpOuts ⟨some (9 / 10), 2, 1, true⟩ (fun _ => XF.fin 100 * XF.fin 1) [tpMiddle 3 9] = [some ([1 / 4, 3 / 4, 3 / 4], v')] :=
  ⟨[XF.fin 1, XF.fin 1, XF.fin 1], [XF.fin (1 / 2), XF.fin (1 / 2), XF.fin (1 / 2)], by decide +kernel⟩

end Verif
