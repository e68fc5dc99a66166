import Verif.Model.Uniform
import Verif.Model.Mixture
import Mathlib.Data.List.Sort

/-!
# `sampling_methods/tree_pyramid.py`

Node objects live in the list `nodes`; a reference to a node object is its position in that list. The fields
`nodeIdx` and `leafIdx` are the indices *stored by the code* in the node objects, so that their agreement with the actual
positions is a property to be proved, not an assumption. Weights are extended numbers (`XF`), since they are quotients.
-/

set_option linter.unusedSectionVars false
set_option autoImplicit false

namespace Verif

variable {K : Type*} [Field K] [LinearOrder K] {d : ℕ}

/-- Point of the space. -/
abbrev Pt (K : Type*) (d : ℕ) := Fin d → K

/-- tree_pyramid.py:23-60 `CTreePyramidNode`. `children` are references (`[]` stands for the initial list of `None`);
`coordsHist`/`weightHist` are `none` before the first sample (lines 46-47) and after being deleted by `expand`
(lines 191-192); `histDeleted` tells the two apart. The sampler object is determined by center and radius. -/
structure TPNode (K : Type*) (d : ℕ) where
  center : Pt K d
  radius : K
  children : List ℕ
  weight : XF K
  coords : Pt K d
  leafIdx : ℤ
  nodeIdx : ℕ
  level : ℕ
  value : XF K
  coordsHist : Option (List (Pt K d))
  weightHist : Option (List (XF K))
  histDeleted : Bool

namespace TPNode

/-- tree_pyramid.py:24-60 constructor; line 45: `value = weight * radius ** d`. -/
def new (center : Pt K d) (radius : K) (nodeIdx : ℕ) (leafIdx : ℤ) (level : ℕ) (weight : XF K) : TPNode K d where
  center := center
  radius := radius
  children := []
  weight := weight
  coords := fun _ => 0
  leafIdx := leafIdx
  nodeIdx := nodeIdx
  level := level
  value := weight * XF.fin (radius ^ d)
  coordsHist := none
  weightHist := none
  histDeleted := false

/-- tree_pyramid.py:106-107 `is_leaf`. -/
def isLeaf (n : TPNode K d) : Bool := n.leafIdx != -1

/-- tree_pyramid.py:52-53: the haar sampler of a node, a uniform distribution with the node's center and radius
(a one element radius array, so the branch of CMultivariateUniform.py:21-22). -/
def sampler (n : TPNode K d) : Uniform K d := ⟨n.center, fun _ => n.radius, (n.radius * 2) ^ d⟩

/-- tree_pyramid.py:62-69 `sample` with the point `x` produced by the sampler. -/
def sample (n : TPNode K d) (x : Pt K d) : TPNode K d :=
  { n with coords := x, coordsHist := some (n.coordsHist.getD [] ++ [x]) }

/-- tree_pyramid.py:71-89 `weigh` (with `target_f = 1`): weight = target(coords)/importance(coords), appended to the
history; value = mean of the history times radius^d. -/
def weigh (n : TPNode K d) (target importance : Pt K d → XF K) : TPNode K d :=
  let w := target n.coords / importance n.coords
  let h := n.weightHist.getD [] ++ [w]
  { n with
    weight := w
    weightHist := some h
    value := (h.sum / XF.fin (h.length : K)) * XF.fin (n.radius ^ d) }

/-- tree_pyramid.py:98: all coordinates of `x` in the closed box of the node. -/
def contains (n : TPNode K d) (x : Pt K d) : Prop :=
  ∀ i, n.center i - n.radius ≤ x i ∧ x i ≤ n.center i + n.radius

instance (n : TPNode K d) (x : Pt K d) : Decidable (n.contains x) := by
  unfold contains; infer_instance

end TPNode

/-- tree_pyramid.py:117-142 `CTreePyramid`: node list, leaf list (references) and the cached arrays. -/
structure TPTree (K : Type*) (d : ℕ) where
  nodes : List (TPNode K d)
  leaves : List ℕ
  centers : List (Pt K d)
  radii : List K
  samples : List (Pt K d)
  weights : List (XF K)
  leavesIdx : List Bool

/-- `itertools.product([-1, 1], repeat=d)` in its order (tree_pyramid.py:177). -/
def signVecs : (d : ℕ) → List (Pt K d)
  | 0 => [Fin.elim0]
  | d + 1 => [-1, 1].flatMap fun s => (signVecs d).map fun v => Fin.cons s v

namespace TPTree

/-- tree_pyramid.py:118-130: the tree with only the root; the radius is the largest half range. `np.max` of an
empty array raises ValueError. -/
def init (dmin dmax : Pt K d) : Except PyErr (TPTree K d) :=
  match (List.ofFn fun i => (dmax i - dmin i) / 2) with
  | [] => .error .value
  | r :: rs =>
    let radius := rs.foldl max r
    let root : TPNode K d := TPNode.new (fun i => (dmin i + dmax i) / 2) radius 0 0 0 (XF.fin 0)
    .ok { nodes := [root]
          leaves := [0]
          centers := [root.center]
          radii := [root.radius]
          samples := [fun _ => 0]
          weights := [XF.fin 0]
          leavesIdx := [true] }

/-- tree_pyramid.py:165-172: the effective sample size criterion; `false` means "return None". A missing
history (`len(None)` or a deleted attribute) raises. -/
def shouldExpand (n : TPNode K d) (essTarget : Option K) (nMin : ℕ) : Except PyErr Bool :=
  match essTarget with
  | none => .ok true
  | some t =>
    match n.weightHist with
    | none => .error (if n.histDeleted then .attribute else .type)
    | some h =>
      if h.length < nMin then .ok false
      else
        let ess := (h.sum * h.sum) / (h.map fun w => w * w).sum
        if XF.ltb (XF.fin (t * h.length)) ess then .ok false else .ok true

/-- tree_pyramid.py:177-184: centers of the children. -/
def childCenters (n : TPNode K d) : List (Pt K d) :=
  (signVecs d).map fun s => fun i => n.center i + (n.radius / 2) * s i

/-- tree_pyramid.py:202-204: the new child nodes; each gets the fraction `1/(N+1)` of the weight, where `N` is the
last index of the enumeration of line 181. -/
def newNodes (T : TPTree K d) (n : TPNode K d) : List (TPNode K d) :=
  (childCenters n).zipIdx.map fun (c, i) =>
    TPNode.new c (n.radius / 2) (T.nodes.length + i) ((T.leaves.length : ℤ) + i - 1) (n.level + 1)
      (n.weight / XF.fin ((childCenters n).length : K))

/-- tree_pyramid.py:211 `new_nodes[0].leaf_idx = node.leaf_idx`. -/
def takeSlot (j : ℤ) : List (TPNode K d) → List (TPNode K d)
  | [] => []
  | c :: cs => { c with leafIdx := j } :: cs

/-- tree_pyramid.py:201-235: creation of the children and update of all arrays. `p` is the reference of the expanded
node `n`. Returns the tree and the references of the new nodes. -/
def insertChildren (T : TPTree K d) (p : ℕ) (n : TPNode K d) : TPTree K d × List ℕ :=
  let new := newNodes T n
  let refs := List.range' T.nodes.length new.length
  -- line 211: the first new node takes the leaf slot of the expanding node
  let new' := takeSlot n.leafIdx new
  -- lines 232-234: the expanding node gets its children and is no longer a leaf; lines 191-192: histories deleted
  let n' := { n with children := refs, leafIdx := -1, coordsHist := none, weightHist := none, histDeleted := true }
  ({ nodes := (T.nodes ++ new').set p n'
     -- lines 212, 215
     leaves := (T.leaves.set n.leafIdx.toNat T.nodes.length) ++ refs.tail
     -- lines 218-219
     centers := T.centers ++ childCenters n
     radii := T.radii ++ List.replicate new.length (n.radius / 2)
     -- lines 222-223
     samples := T.samples ++ List.replicate new.length (fun _ => 0)
     weights := T.weights ++ List.replicate new.length (XF.fin 0)
     -- lines 208, 226
     leavesIdx := (T.leavesIdx ++ List.replicate new.length true).set n.nodeIdx false }, refs)

/-- tree_pyramid.py:160-235 `expand` of the node referenced by `p`: AssertionError for a non leaf, `none` when the
criterion is not met, otherwise the references of the children. (A reference outside the node list does not exist in
python; it is mapped to an error.) -/
def expand (T : TPTree K d) (p : ℕ) (essTarget : Option K) (nMin : ℕ) :
    Except PyErr (TPTree K d × Option (List ℕ)) :=
  match T.nodes[p]? with
  | none => .error .index
  | some n =>
    if n.isLeaf = false then .error .assertion
    else
      match shouldExpand n essTarget nMin with
      | .error e => .error e
      | .ok false => .ok (T, none)
      | .ok true =>
        let (T', refs) := insertChildren T p n
        .ok (T', some refs)

/-- tree_pyramid.py:91-101 `get_child`: the first child whose closed box contains the value. -/
def getChild (T : TPTree K d) (n : TPNode K d) (x : Pt K d) : Except PyErr ℕ :=
  match n.children.find? fun c => match T.nodes[c]? with
    | some m => decide (m.contains x)
    | none => false with
  | some c => .ok c
  | none => .error .value

/-- tree_pyramid.py:144-158 `find`, with a bound on the recursion depth (python raises RecursionError at its own
bound): whatever `prev` is, line 153 restarts at the root. The result is the reference of the node found. -/
def find (T : TPTree K d) (x : Pt K d) : (fuel : ℕ) → (prev : Option ℕ) → Except PyErr ℕ
  | 0, _ => .error .runtime
  | fuel + 1, _ =>
    match T.nodes[0]? with
    | none => .error .index
    | some root =>
      if root.isLeaf then .ok 0
      else
        match getChild T root x with
        | .error e => .error e
        | .ok c => find T x fuel (some c)

/-- Update the node object with reference `p`. -/
def modifyNode (T : TPTree K d) (p : ℕ) (f : TPNode K d → TPNode K d) : TPTree K d :=
  { T with nodes := T.nodes.modify p f }

/-- tree_pyramid.py:459-460 (also 443-444, 407-408): the node takes the sample `x`, cached at the stored node index. -/
def sampleNode (T : TPTree K d) (p : ℕ) (x : Pt K d) : Except PyErr (TPTree K d) :=
  match T.nodes[p]? with
  | none => .error .index
  | some n =>
    if n.nodeIdx < T.samples.length then
      .ok { T with nodes := T.nodes.modify p fun n => n.sample x
                   samples := T.samples.set n.nodeIdx x }
    else .error .index

/-- tree_pyramid.py:463-466 (also 446-447, 411-414): the node is weighed and the weight cached at the stored index. -/
def weighNode (T : TPTree K d) (p : ℕ) (target importance : Pt K d → XF K) : Except PyErr (TPTree K d) :=
  match T.nodes[p]? with
  | none => .error .index
  | some n =>
    if n.nodeIdx < T.weights.length then
      .ok { T with nodes := T.nodes.modify p fun n => n.weigh target importance
                   weights := T.weights.set n.nodeIdx (n.weigh target importance).weight }
    else .error .index

/-- numpy `a[mask] = f(a[mask])` for an entrywise function that may use the position in the array. -/
def maskUpdate {α : Type*} (mask : List Bool) (l : List α) (f : ℕ → α → α) : List α :=
  (l.zipIdx.zip mask).map fun ((a, i), b) => if b then f i a else a

/-- tree_pyramid.py:705-708 `_self_normalize`: the leaf weights are divided by their sum when it is positive. -/
def selfNormalize (T : TPTree K d) : TPTree K d :=
  let s := (maskSelect T.leavesIdx T.weights).sum
  if XF.ltb (XF.fin 0) s then
    { T with weights := maskUpdate T.leavesIdx T.weights fun _ w => w / s }
  else T

/-- `l[-1] = v` (IndexError on an empty list). -/
def setLast {α : Type*} (l : List α) (v : α) : Option (List α) :=
  if l = [] then none else some (l.dropLast ++ [v])

/-- tree_pyramid.py:505 and 517: new sample of the leaf at node position `i` for the generator output `u i` in
`[0,1)^d` (prototype sampler uniform on `[-1/2, 1/2)^d`, lines 134-136, scaled by `2*radius` and shifted). -/
def reSample (u : Pt K d) (c : Pt K d) (r : K) : Pt K d := fun j => (-(1/2) + (1/2 - -(1/2)) * u j) * 2 * r + c j

/-- tree_pyramid.py:527-533, one pass of the loop: the leaf object gets the resampled weight and coordinates in
place of its last ones. A leaf without history raises (`None[-1] = ...`). -/
def refreshLeaf (T : TPTree K d) (p : ℕ) : Except PyErr (TPTree K d) :=
  match T.nodes[p]? with
  | none => .error .index
  | some n =>
    match T.weights[n.nodeIdx]?, T.samples[n.nodeIdx]? with
    | some w, some x =>
      match n.weightHist.bind (setLast · w), n.coordsHist.bind (setLast · x) with
      | some wh, some ch =>
        let n' := { n with weight := w, weightHist := some wh, coordsHist := some ch,
                           value := w * XF.fin ((2 * n.radius) ^ d) }
        .ok { T with nodes := T.nodes.set p n' }
      | _, _ => .error .type
    | _, _ => .error .index

/-- tree_pyramid.py:503-517: the resampled points and weights written to the cached arrays at the leaf positions
(haar kernel: importance density `1/(2r)^d`). The generator outputs `u` are indexed by node position instead of by the
rank of the leaf, a renaming of the random draws. -/
def resampleArrays (T : TPTree K d) (target : Pt K d → XF K) (u : ℕ → Pt K d) : TPTree K d :=
  let pts := (T.centers.zip T.radii).zipIdx.map fun ((c, r), i) => (reSample (u i) c r, r)
  { T with
    samples := ((T.samples.zip pts).zip T.leavesIdx).map fun ((s, x), b) => if b then x.1 else s
    weights := ((T.weights.zip pts).zip T.leavesIdx).map fun ((w, x), b) =>
      if b then target x.1 / (XF.fin 1 / XF.fin ((2 * x.2) ^ d)) else w }

/-- tree_pyramid.py:500-533 `resample` (haar kernel). -/
def resample (T : TPTree K d) (target : Pt K d → XF K) (u : ℕ → Pt K d) : Except PyErr (TPTree K d) :=
  let T1 := selfNormalize (resampleArrays T target u)
  T1.leaves.foldlM refreshLeaf T1

/-- tree_pyramid.py:664-675 `_expand_nodes`: `acc` is `new_particles`. The limit is only tested after an expansion. -/
def expandNodes (essTarget : Option K) (nMin maxParts : ℕ) :
    TPTree K d → List ℕ → List ℕ → Except PyErr (TPTree K d × List ℕ)
  | T, [], acc => .ok (T, acc)
  | T, p :: ps, acc =>
    match expand T p essTarget nMin with
    | .error e => .error e
    | .ok (T', some refs) =>
      if maxParts < (acc ++ refs).length then .ok (T', acc ++ refs)
      else expandNodes essTarget nMin maxParts T' ps (acc ++ refs)
    | .ok (T', none) => expandNodes essTarget nMin maxParts T' ps (acc ++ [p])

/-- tree_pyramid.py:593-602, one row of `prob` with the haar kernel: the leaves whose open box contains `x`; none
gives 0, one gives `weight/(2r)^d`, several make the scalar assignment fail (ValueError). -/
def prob1 (T : TPTree K d) (x : Pt K d) : Except PyErr (XF K) :=
  let rows := (T.leavesIdx.zip (T.centers.zip T.radii)).zip T.weights
  let inl := rows.filter fun ((b, c, r), _) => b && decide (∀ i, c i - r < x i ∧ x i < c i + r)
  match inl with
  | [] => .ok (XF.fin 0)
  | [((_, _, r), w)] => .ok (w / XF.fin ((2 * r) ^ d))
  | _ => .error .value

/-- numpy slice assignment `l[i:i+len(v)] = v` when the slice fits, else ValueError (shape mismatch). -/
def writeSlice {α : Type*} (l : List α) (i : ℕ) (v : List α) : Except PyErr (List α) :=
  if i + v.length ≤ l.length then .ok (l.take i ++ v ++ l.drop (i + v.length)) else .error .value

/-- tree_pyramid.py:689-703 `_get_samples`. `leafHists` are the histories of the leaves in leaf order. Comparing
`None > 1.0` raises TypeError. Lines 699-702: the i-th leaf is written at offset `i`. -/
def getSamples (T : TPTree K d) (essTarget : Option K) : Except PyErr (List (Pt K d) × List (XF K)) :=
  match essTarget with
  | none => .error .type
  | some t =>
    if 1 < t then .ok (maskSelect T.leavesIdx T.samples, maskSelect T.leavesIdx T.weights)
    else
      match T.leaves.mapM fun p => (T.nodes[p]?).bind fun n =>
          (n.coordsHist.bind fun ch => n.weightHist.map fun wh => (ch, wh)) with
      | none => .error .type
      | some hs =>
        let n := (hs.map fun h => h.2.length).sum
        let init : List (Pt K d) × List (XF K) := (List.replicate n (fun _ => 0), List.replicate n (XF.fin 0))
        match hs.zipIdx.foldlM (fun (acc : List (Pt K d) × List (XF K)) (h, i) =>
            if h.1.length = h.2.length then do
              let s ← writeSlice acc.1 i h.1
              let w ← writeSlice acc.2 i h.2
              return (s, w)
            else .error .value) init with
        | .error e => .error e
        | .ok (s, w) =>
          let mask := w.map fun v => XF.ltb (XF.fin 0) v
          .ok (maskSelect mask s, maskSelect mask w)

end TPTree

/-- State of `CTreePyramidSampling` for method "simple" and kernel "haar" (tree_pyramid.py:270-326): the tree, the
counters, and the mixture model rebuilt by `_update_model` (components by center and radius, weights). -/
structure TPSampler (K : Type*) (d : ℕ) where
  T : TPTree K d
  numQ : ℕ
  numPi : ℕ
  numQEvals : ℕ
  model : List (Pt K d × K) × List (XF K)

/-- Configuration parameters (tree_pyramid.py:306-320). -/
structure TPConfig (K : Type*) where
  essTarget : Option K
  nMin : ℕ
  parallel : ℕ
  leafResampling : Bool

/-- What the environment provides for one iteration of the sampling loop: generator outputs per node reference for the
new samples, per node position for the resampling, and whether the time limit has passed after the iteration. -/
structure TPIter (K : Type*) (d : ℕ) where
  draw : ℕ → Pt K d
  redraw : ℕ → Pt K d
  late : Bool

namespace TPSampler

/-- tree_pyramid.py:710-736 `_update_model` (haar): mixture over the leaf boxes weighted with the leaf weights; the tree
weights are normalised in place. -/
def updateModel (S : TPSampler K d) : Except PyErr (TPSampler K d) :=
  let ws := maskSelect S.T.leavesIdx S.T.weights
  let boxes := (maskSelect S.T.leavesIdx S.T.centers).zip (maskSelect S.T.leavesIdx S.T.radii)
  -- the constructor of CMixtureModel
  (setWeights boxes.length ws).map fun st => { S with T := S.T.selfNormalize, model := (boxes, st) }

/-- tree_pyramid.py:459-466: sample and weigh one node with its own (haar) sampler and count the operations. -/
def visit (target : Pt K d → XF K) (draw : ℕ → Pt K d) (S : TPSampler K d) (p : ℕ) :
    Except PyErr (TPSampler K d) :=
  match S.T.nodes[p]? with
  | none => .error .index
  | some n => do
    let T1 ← S.T.sampleNode p (n.sampler.sample1 (draw p))
    let T2 ← T1.weighNode p target n.sampler.prob1
    return { S with T := T2, numQ := S.numQ + 1, numPi := S.numPi + 1, numQEvals := S.numQEvals + 1 }

/-- tree_pyramid.py:441-448: first sample of the root (its evaluations are not counted by the code). -/
def initRoot (target : Pt K d → XF K) (u : Pt K d) (S : TPSampler K d) : Except PyErr (TPSampler K d) :=
  match S.T.nodes[0]? with
  | none => .error .index
  | some root =>
    if root.histDeleted = false ∧ root.weightHist = none then do
      let T1 ← S.T.sampleNode 0 (root.sampler.sample1 u)
      let T2 ← T1.weighNode 0 target root.sampler.prob1
      updateModel { S with T := T2, numQ := S.numQ + 1 }
    else .ok S

/-- `sorted(leaves, reverse=True)` with `__lt__` comparing values (tree_pyramid.py:452, 103-104): a stable sort by
decreasing value. (With `nan` values the order python produces is another permutation.) -/
def sortedLeaves (T : TPTree K d) : List ℕ :=
  let val := fun p => match T.nodes[p]? with
    | some n => n.value
    | none => XF.nan
  T.leaves.insertionSort fun a b => XF.ltb (val a) (val b) = false

/-- tree_pyramid.py:451-472: body of the sampling loop. -/
def iterate (cfg : TPConfig K) (target : Pt K d → XF K) (it : TPIter K d) (S : TPSampler K d) :
    Except PyErr (TPSampler K d) := do
  let (T1, new) ← TPTree.expandNodes cfg.essTarget cfg.nMin cfg.parallel S.T (sortedLeaves S.T) []
  let S2 ← new.foldlM (visit target it.draw) { S with T := T1 }
  if cfg.leafResampling then
    let T3 ← S2.T.resample target it.redraw
    let n := S2.T.leaves.length
    return { S2 with T := T3, numQ := S2.numQ + n, numPi := S2.numPi + n, numQEvals := S2.numQEvals + n }
  else
    return S2

/-- tree_pyramid.py:450-472: the loop `while n_samples > self._get_nsamples() and elapsed_time < timeout`, driven by a
script of iterations. The boolean tells whether the loop was left (`true`) or the script ended first (`false`). -/
def loop (cfg : TPConfig K) (target : Pt K d → XF K) (nSamples : ℕ) :
    Bool → List (TPIter K d) → TPSampler K d → Except PyErr (TPSampler K d × Bool)
  | late, [], S => do
    let (_, ws) ← S.T.getSamples cfg.essTarget
    return (S, decide (¬ (ws.length < nSamples ∧ late = false)))
  | late, it :: its, S => do
    let (_, ws) ← S.T.getSamples cfg.essTarget
    if ws.length < nSamples ∧ late = false then
      let S' ← iterate cfg target it S
      loop cfg target nSamples it.late its S'
    else
      return (S, true)

/-- tree_pyramid.py:335-340 `reset` (and the constructor, 317-322): a new tree, counters at 0 (base.py:29-35), and the
root's sampler as model (written as a mixture with one component). -/
def new (dmin dmax : Pt K d) : Except PyErr (TPSampler K d) :=
  (TPTree.init dmin dmax).map fun T => ⟨T, 0, 0, 0, (T.centers.zip T.radii, [XF.fin 1])⟩

/-- tree_pyramid.py:425-475 `importance_sample_simple`. `u0` is the generator output for the first root sample.
The result carries the samples and weights when the call returned (`some`), `none` when the script ended first. -/
def importanceSampleSimple (cfg : TPConfig K) (target : Pt K d → XF K) (nSamples : ℕ) (u0 : Pt K d)
    (its : List (TPIter K d)) (S : TPSampler K d) :
    Except PyErr (TPSampler K d × Option (List (Pt K d) × List (XF K))) := do
  let S0 ← initRoot target u0 S
  let (S1, fin) ← loop cfg target nSamples false its S0
  if fin then
    let S2 ← updateModel S1
    let out ← S2.T.getSamples cfg.essTarget
    return (S2, some out)
  else
    return (S1, none)

end TPSampler
end Verif
