import Verif.Proof.TPProb

set_option linter.unusedSectionVars false
set_option autoImplicit false

namespace Verif

variable {K : Type*} [Field K] [LinearOrder K] [IsStrictOrderedRing K] {d : ℕ}

namespace TPTree

/-- `w` is the importance weight of `x` for the box `(c, r)`, possibly divided by some normalisers. -/
def PairOK (target : Pt K d → XF K) (c : Pt K d) (r : K) (x : Pt K d) (w : XF K) : Prop :=
  ∃ (q : XF K) (ds : List (XF K)),
    (q = (if (∀ i, c i - r < x i ∧ x i ≤ c i + r) then XF.fin 1 / XF.fin ((2 * r) ^ d) else XF.fin 0) ∨
      q = XF.fin 1 / XF.fin ((2 * r) ^ d)) ∧
    w = ds.foldl (fun a b => a / b) (target x / q)

/-- Histories `ch`, `wh` of a node with box `(c, r)`. -/
structure HistGood (target : Pt K d → XF K) (c : Pt K d) (r : K) (ch : List (Pt K d)) (wh : List (XF K)) : Prop where
  len : ch.length = wh.length
  ne : ch ≠ []
  inbox : ∀ x ∈ ch, InHalfOpen c r x
  pairs : ∀ x w, (x, w) ∈ ch.zip wh → PairOK target c r x w

/-- The leaf `p` has good histories and the cached sample and weight are its last ones. -/
def HistOK (target : Pt K d → XF K) (T : TPTree K d) (p : ℕ) : Prop :=
  ∃ (n : TPNode K d) (ch : List (Pt K d)) (wh : List (XF K)), T.nodes[p]? = some n ∧ n.coordsHist = some ch ∧
    n.weightHist = some wh ∧ HistGood target n.center n.radius ch wh ∧ T.samples[p]? = ch.getLast? ∧
    ∃ (w0 : XF K) (ds : List (XF K)), wh.getLast? = some w0 ∧ T.weights[p]? = some (ds.foldl (fun a b => a / b) w0)

/-- The node `p` has not been sampled yet. -/
def Fresh (T : TPTree K d) (p : ℕ) : Prop :=
  ∃ n : TPNode K d, T.nodes[p]? = some n ∧ n.coordsHist = none ∧ n.weightHist = none

/-- The leaf `p` has good histories and the cached pair is a valid pair for its box. -/
def HalfOK (target : Pt K d → XF K) (T : TPTree K d) (p : ℕ) : Prop :=
  ∃ (n : TPNode K d) (ch : List (Pt K d)) (wh : List (XF K)) (x : Pt K d) (w : XF K), T.nodes[p]? = some n ∧
    n.coordsHist = some ch ∧ n.weightHist = some wh ∧ HistGood target n.center n.radius ch wh ∧ T.samples[p]? = some x ∧ T.weights[p]? = some w ∧
    InHalfOpen n.center n.radius x ∧ PairOK target n.center n.radius x w

theorem PairOK.div {target : Pt K d → XF K} {c : Pt K d} {r : K} {x : Pt K d} {w : XF K}
    (h : PairOK target c r x w) (s : XF K) : PairOK target c r x (w / s) := by
  obtain ⟨q, ds, hq, rfl⟩ := h
  exact ⟨q, ds ++ [s], hq, by simp⟩

theorem PairOK.divs {target : Pt K d → XF K} {c : Pt K d} {r : K} {x : Pt K d} {w : XF K}
    (h : PairOK target c r x w) (ds : List (XF K)) : PairOK target c r x (ds.foldl (fun a b => a / b) w) := by
  induction ds generalizing w with
  | nil => exact h
  | cons a l ih => exact ih (h.div a)

theorem HistOK.congr {target : Pt K d → XF K} {T T' : TPTree K d} {p : ℕ} (hn : T'.nodes[p]? = T.nodes[p]?)
    (hs : T'.samples[p]? = T.samples[p]?) (hw : T'.weights[p]? = T.weights[p]?) (h : HistOK target T p) :
    HistOK target T' p := by
  obtain ⟨n, ch, wh, h1, h2, h3, h4, h5, h6⟩ := h
  exact ⟨n, ch, wh, by rw [hn, h1], h2, h3, h4, by rw [hs, h5], by rw [hw]; exact h6⟩

theorem HalfOK.congr {target : Pt K d → XF K} {T T' : TPTree K d} {p : ℕ} (hn : T'.nodes[p]? = T.nodes[p]?)
    (hs : T'.samples[p]? = T.samples[p]?) (hw : T'.weights[p]? = T.weights[p]?) (h : HalfOK target T p) :
    HalfOK target T' p := by
  obtain ⟨n, ch, wh, x, w, h1, h2, h3, h4, h5, h6, h7⟩ := h
  exact ⟨n, ch, wh, x, w, by rw [hn, h1], h2, h3, h4, by rw [hs, h5], by rw [hw]; exact h6, h7⟩

theorem HistOK.half {target : Pt K d → XF K} {T : TPTree K d} {p : ℕ} (h : HistOK target T p) : HalfOK target T p := by
  obtain ⟨n, ch, wh, h1, h2, h3, h4, h5, w0, ds, h6, h7⟩ := h
  obtain ⟨x, hx⟩ : ∃ x, ch.getLast? = some x := by
    cases hl : ch.getLast? with
    | none => rw [List.getLast?_eq_none_iff] at hl; exact absurd hl h4.ne
    | some x => exact ⟨x, rfl⟩
  refine ⟨n, ch, wh, x, _, h1, h2, h3, h4, by rw [h5, hx], h7, h4.inbox x (List.mem_of_getLast? hx), ?_⟩
  apply PairOK.divs
  apply h4.pairs
  rw [List.getLast?_eq_getElem?] at hx h6
  apply List.mem_iff_getElem?.2
  refine ⟨ch.length - 1, ?_⟩
  rw [List.getElem?_zip_eq_some]
  refine ⟨hx, ?_⟩
  rw [h4.len]; exact h6

theorem HistGood.append {target : Pt K d → XF K} {c : Pt K d} {r : K} {ch : List (Pt K d)} {wh : List (XF K)}
    (h : (ch = [] ∧ wh = []) ∨ HistGood target c r ch wh) {x : Pt K d} {w : XF K} (hx : InHalfOpen c r x)
    (hp : PairOK target c r x w) : HistGood target c r (ch ++ [x]) (wh ++ [w]) := by
  have hlen : ch.length = wh.length := by
    rcases h with ⟨rfl, rfl⟩ | h
    · rfl
    · exact h.len
  refine ⟨by simp [hlen], by simp, ?_, ?_⟩
  · intro y hy
    rcases List.mem_append.1 hy with hy | hy
    · rcases h with ⟨rfl, rfl⟩ | h
      · simp at hy
      · exact h.inbox y hy
    · rw [List.mem_singleton] at hy
      rw [hy]; exact hx
  · intro y v hyv
    rw [List.zip_append hlen] at hyv
    rcases List.mem_append.1 hyv with hyv | hyv
    · rcases h with ⟨rfl, rfl⟩ | h
      · simp at hyv
      · exact h.pairs y v hyv
    · simp at hyv
      rw [hyv.1, hyv.2]; exact hp

theorem HistGood.replaceLast {target : Pt K d → XF K} {c : Pt K d} {r : K} {ch : List (Pt K d)} {wh : List (XF K)}
    (h : HistGood target c r ch wh) {x : Pt K d} {w : XF K} (hx : InHalfOpen c r x)
    (hp : PairOK target c r x w) : HistGood target c r (ch.dropLast ++ [x]) (wh.dropLast ++ [w]) := by
  apply HistGood.append _ hx hp
  by_cases he : ch.dropLast = []
  · left
    refine ⟨he, ?_⟩
    have h1 := congrArg List.length he
    have := h.len
    rw [← List.length_eq_zero_iff]
    simp at h1 ⊢
    omega
  · right
    refine ⟨by simp [h.len], he, fun y hy => h.inbox y (List.dropLast_subset _ hy), ?_⟩
    intro y v hyv
    apply h.pairs
    have : ch.dropLast.zip wh.dropLast = (ch.zip wh).dropLast := by
      rw [List.dropLast_eq_take, List.dropLast_eq_take, List.dropLast_eq_take, List.length_zip, h.len, min_self]
      unfold List.zip
      rw [List.take_zipWith]
    rw [this] at hyv
    exact List.dropLast_subset _ hyv

/-! ### visiting a node -/

theorem getElem?_modify_ne' {α : Type*} (f : α → α) (l : List α) {p q : ℕ} (h : p ≠ q) :
    (l.modify p f)[q]? = l[q]? := by
  rw [List.getElem?_modify]
  simp [h]


theorem sampler_prob1 (n : TPNode K d) (x : Pt K d) : n.sampler.prob1 x =
    if (∀ i, n.center i - n.radius < x i ∧ x i ≤ n.center i + n.radius) then XF.fin 1 / XF.fin ((2 * n.radius) ^ d)
    else XF.fin 0 := by
  unfold Uniform.prob1 Uniform.inlier Uniform.probVal TPNode.sampler
  rw [mul_comm n.radius 2]

theorem sampler_sample1 (n : TPNode K d) (hr : 0 < n.radius) (u : Pt K d) (hu : ∀ i, 0 ≤ u i ∧ u i < 1) :
    InHalfOpen n.center n.radius (n.sampler.sample1 u) := by
  intro i
  simp only [Uniform.sample1, TPNode.sampler]
  have h1 := (hu i).1
  have h2 := (hu i).2
  constructor <;> nlinarith

/-- What sampling and weighing a node with its own sampler does. -/
theorem sampleWeigh {target : Pt K d → XF K} {T : TPTree K d} (I : WF T) {p : ℕ} {n : TPNode K d}
    (hn : T.nodes[p]? = some n) (hr : 0 < n.radius) (hist : Fresh T p ∨ HistOK target T p)
    (u : Pt K d) (hu : ∀ i, 0 ≤ u i ∧ u i < 1) :
    ∃ T1 T2, T.sampleNode p (n.sampler.sample1 u) = .ok T1 ∧ T1.weighNode p target n.sampler.prob1 = .ok T2 ∧
      Same T T2 ∧ HistOK target T2 p ∧
      ∀ q, q ≠ p → T2.nodes[q]? = T.nodes[q]? ∧ T2.samples[q]? = T.samples[q]? ∧ T2.weights[q]? = T.weights[q]? := by
  have hpN : p < T.nodes.length := (List.getElem?_eq_some_iff.1 hn).1
  have hni := I.idx p n hn
  have hlen1 := I.lenS
  have hlen2 := I.lenW
  set x := n.sampler.sample1 u with hx
  have hbox : InHalfOpen n.center n.radius x := sampler_sample1 n hr u hu
  have h1 : T.sampleNode p x = .ok { T with nodes := T.nodes.modify p fun n => n.sample x
                                            samples := T.samples.set p x } := by
    unfold sampleNode
    rw [hn]
    simp only [hni]
    rw [if_pos (by omega)]
  have hn1 : (T.nodes.modify p fun n => n.sample x)[p]? = some (n.sample x) := by
    rw [List.getElem?_modify_eq, hn]; rfl
  have h2 : TPTree.weighNode { T with nodes := T.nodes.modify p fun n => n.sample x
                                      samples := T.samples.set p x } p target n.sampler.prob1
      = .ok { T with nodes := (T.nodes.modify p fun n => n.sample x).modify p fun m => m.weigh target n.sampler.prob1
                     samples := T.samples.set p x
                     weights := T.weights.set p ((n.sample x).weigh target n.sampler.prob1).weight } := by
    unfold weighNode
    simp only [hn1]
    have : (n.sample x).nodeIdx = p := hni
    rw [this, if_pos (by omega)]
  refine ⟨_, _, h1, h2, (sampleNode_same h1).trans (weighNode_same h2), ?_, ?_⟩
  · have hw : PairOK target n.center n.radius x (target x / n.sampler.prob1 x) :=
      ⟨n.sampler.prob1 x, [], Or.inl (sampler_prob1 n x), rfl⟩
    have hg : HistGood target n.center n.radius (n.coordsHist.getD [] ++ [x])
        (n.weightHist.getD [] ++ [target x / n.sampler.prob1 x]) := by
      apply HistGood.append _ hbox hw
      rcases hist with ⟨m, hm, hc, hwh⟩ | ⟨m, ch, wh, hm, hc, hwh, hg, _⟩
      · rw [hn] at hm
        obtain rfl : n = m := by simpa using hm
        left
        simp [hc, hwh]
      · rw [hn] at hm
        obtain rfl : n = m := by simpa using hm
        right
        simpa [hc, hwh] using hg
    have hn2 : ((T.nodes.modify p fun n => n.sample x).modify p fun m => m.weigh target n.sampler.prob1)[p]?
        = some ((n.sample x).weigh target n.sampler.prob1) := by
      rw [List.getElem?_modify_eq, hn1]
      rfl
    refine ⟨(n.sample x).weigh target n.sampler.prob1, _, _, hn2, rfl, rfl, hg, ?_, ?_⟩
    · have h3 : (T.samples.set p x)[p]? = some x := List.getElem?_set_self (by omega)
      exact h3.trans (by simp)
    · refine ⟨target x / n.sampler.prob1 x, [], by simp; rfl, ?_⟩
      simp only
      rw [List.getElem?_set_self (by omega)]
      rfl
  · intro q hq
    have hq' : p ≠ q := fun h => hq h.symm
    simp only
    rw [getElem?_modify_ne' _ _ hq', getElem?_modify_ne' _ _ hq', List.getElem?_set_ne hq', List.getElem?_set_ne hq']
    exact ⟨rfl, rfl, rfl⟩

/-! ### expansion of a list of leaves -/

theorem insertChildren_old {T : TPTree K d} (I : WF T) {p : ℕ} {n : TPNode K d} {q : ℕ} (hq : q ≠ p)
    (hqN : q < T.nodes.length) :
    (insertChildren T p n).1.nodes[q]? = T.nodes[q]? ∧ (insertChildren T p n).1.samples[q]? = T.samples[q]? ∧
    (insertChildren T p n).1.weights[q]? = T.weights[q]? := by
  rw [insertChildren_eq]
  simp only
  have hq' : p ≠ q := fun h => hq h.symm
  rw [List.getElem?_set_ne hq', List.getElem?_append_left hqN, List.getElem?_append_left (by rw [I.lenS]; exact hqN),
    List.getElem?_append_left (by rw [I.lenW]; exact hqN)]
  exact ⟨rfl, rfl, rfl⟩

theorem insertChildren_new {T : TPTree K d} {p : ℕ} (hpN : p < T.nodes.length) {n : TPNode K d} {q : ℕ}
    (hq : T.nodes.length ≤ q) (hq2 : q < T.nodes.length + 2 ^ d) : Fresh (insertChildren T p n).1 q := by
  have hl := length_childCenters n
  obtain ⟨c, hc⟩ : ∃ c, (childCenters n)[q - T.nodes.length]? = some c :=
    ⟨_, List.getElem?_eq_getElem (by omega)⟩
  refine ⟨childAt T n (q - T.nodes.length) c, ?_, rfl, rfl⟩
  rw [insertChildren_eq]
  simp only
  rw [List.getElem?_set_ne (by omega), List.getElem?_append_right hq, kids_getElem?, hc]
  rfl

theorem insertChildren_leaves {T : TPTree K d} (I : WF T) {p : ℕ} {n : TPNode K d} (hn : T.nodes[p]? = some n)
    (hl : n.isLeaf = true) (q : ℕ) : q ∈ (insertChildren T p n).1.leaves ↔
      (q ∈ T.leaves ∧ q ≠ p) ∨ (T.nodes.length ≤ q ∧ q < T.nodes.length + 2 ^ d) := by
  have hpN : p < T.nodes.length := (List.getElem?_eq_some_iff.1 hn).1
  obtain ⟨j, hj, hjp⟩ := I.leafSlot hn hl
  have hpow : 0 < 2 ^ d := by positivity
  have hjL : j < T.leaves.length := (List.getElem?_eq_some_iff.1 hjp).1
  rw [insertChildren_eq]
  simp only [hj, Int.toNat_natCast, List.mem_append, List.mem_range'_1]
  constructor
  · rintro (h | h)
    · obtain ⟨k, hk⟩ := List.mem_iff_getElem?.1 h
      rw [List.getElem?_set] at hk
      split_ifs at hk with h1
      · right
        have : T.nodes.length = q := by simpa using hk
        omega
      · left
        refine ⟨List.mem_iff_getElem?.2 ⟨k, hk⟩, ?_⟩
        rintro rfl
        obtain ⟨m, hm, hml⟩ := I.leafPos k q hk
        rw [hn] at hm
        obtain rfl : n = m := by simpa using hm
        rw [hj] at hml
        exact h1 (by exact_mod_cast hml)
    · right; omega
  · rintro (⟨h, hqp⟩ | h)
    · left
      obtain ⟨k, hk⟩ := List.mem_iff_getElem?.1 h
      refine List.mem_iff_getElem?.2 ⟨k, ?_⟩
      rw [List.getElem?_set_ne]
      · exact hk
      · rintro rfl
        rw [hjp] at hk
        exact hqp (by simpa using hk.symm)
    · by_cases h0 : q = T.nodes.length
      · left
        rw [h0]
        exact List.mem_set hjL _
      · right; omega

/-- The result of `_expand_nodes` on distinct leaves: distinct leaves of the new tree. -/
theorem expandNodes_spec {c : Pt K d} {R : K} (ess : Option K) (nMin maxParts : ℕ) :
    ∀ (ps : List ℕ) (T T' : TPTree K d) (e : ℕ) (acc out : List ℕ), Reached c R T e →
      expandNodes ess nMin maxParts T ps acc = .ok (T', out) →
      (acc ++ ps).Nodup → (∀ p ∈ acc ++ ps, p ∈ T.leaves) →
      (∃ e', Reached c R T' e') ∧ out.Nodup ∧ (∀ p ∈ out, p ∈ T'.leaves) ∧
      (∀ q ∈ T'.leaves, (q ∈ T.leaves ∧ T'.nodes[q]? = T.nodes[q]? ∧ T'.samples[q]? = T.samples[q]? ∧
          T'.weights[q]? = T.weights[q]?) ∨ (q ∈ out ∧ Fresh T' q)) ∧ (∀ p ∈ acc, p ∈ out)
  | [], T, T', e, acc, out, r, h, hnd, hl => by
    simp only [expandNodes, Except.ok.injEq, Prod.mk.injEq] at h
    obtain ⟨rfl, rfl⟩ := h
    simp only [List.append_nil] at hnd hl
    exact ⟨⟨e, r⟩, hnd, hl, fun q hq => Or.inl ⟨hq, rfl, rfl, rfl⟩, fun p hp => hp⟩
  | p :: ps, T, T', e, acc, out, r, h, hnd, hl => by
    simp only [expandNodes] at h
    cases hx : T.expand p ess nMin with
    | error => simp [hx] at h
    | ok o =>
      obtain ⟨T1, o⟩ := o
      rw [hx] at h
      have r1 := r.expand hx
      rcases expand_cases hx with ⟨rfl, rfl, _⟩ | ⟨n, hn, hlf, _, rfl, rfl⟩
      · simp only at h
        obtain ⟨a1, a2, a3, a4, a5⟩ := expandNodes_spec ess nMin maxParts ps T1 T' e (acc ++ [p]) out r h
          (by simpa using hnd) (by simpa using hl)
        exact ⟨a1, a2, a3, a4, fun q hq => a5 q (by simp [hq])⟩
      · simp only at h
        have I := r.wf
        set T1 := (insertChildren T p n).1 with hT1
        set refs := List.range' T.nodes.length (2 ^ d) with hrefs
        have hpN : p < T.nodes.length := (List.getElem?_eq_some_iff.1 hn).1
        have hold : ∀ q, q ∈ acc ++ p :: ps → q < T.nodes.length := fun q hq => I.leaf_lt (hl q hq)
        rw [List.nodup_append] at hnd
        obtain ⟨n1, n2, n3⟩ := hnd
        rw [List.nodup_cons] at n2
        have hleaf1 : ∀ q, (q ∈ acc ∨ q ∈ ps ∨ q ∈ refs) → q ∈ T1.leaves := by
          intro q hq
          rw [hT1, insertChildren_leaves I hn hlf]
          rcases hq with hq | hq | hq
          · left
            refine ⟨hl q (by simp [hq]), ?_⟩
            rintro rfl
            exact n3 q hq q (by simp) rfl
          · left
            refine ⟨hl q (by simp [hq]), ?_⟩
            rintro rfl
            exact n2.1 hq
          · right
            rw [hrefs, List.mem_range'_1] at hq
            exact hq
        have hnd1 : (acc ++ refs).Nodup := by
          rw [List.nodup_append]
          refine ⟨n1, List.nodup_range', ?_⟩
          intro a ha b hb
          have h1 := hold a (by simp [ha])
          rw [hrefs, List.mem_range'_1] at hb
          omega
        have keep : ∀ q ∈ T1.leaves, (q ∈ T.leaves ∧ T1.nodes[q]? = T.nodes[q]? ∧ T1.samples[q]? = T.samples[q]? ∧
            T1.weights[q]? = T.weights[q]?) ∨ (q ∈ refs ∧ Fresh T1 q) := by
          intro q hq
          rw [hT1, insertChildren_leaves I hn hlf] at hq
          rcases hq with ⟨hq1, hq2⟩ | hq
          · left
            obtain ⟨a, b, c⟩ := insertChildren_old (n := n) I hq2 (I.leaf_lt hq1)
            exact ⟨hq1, a, b, c⟩
          · right
            exact ⟨by rw [hrefs, List.mem_range'_1]; exact hq, insertChildren_new hpN hq.1 hq.2⟩
        split_ifs at h with hmax
        · simp only [Except.ok.injEq, Prod.mk.injEq] at h
          obtain ⟨rfl, rfl⟩ := h
          refine ⟨⟨_, r1⟩, hnd1, ?_, ?_, fun q hq => by simp [hq]⟩
          · intro q hq
            rcases List.mem_append.1 hq with hq | hq
            · exact hleaf1 q (Or.inl hq)
            · exact hleaf1 q (Or.inr (Or.inr hq))
          · intro q hq
            rcases keep q hq with h | h
            · exact Or.inl h
            · exact Or.inr ⟨by simp [h.1], h.2⟩
        · obtain ⟨a1, a2, a3, a4, a5⟩ := expandNodes_spec ess nMin maxParts ps T1 T' _ (acc ++ refs) out r1 h
            (by
              rw [List.nodup_append]
              refine ⟨hnd1, n2.2, ?_⟩
              intro a ha b hb
              rcases List.mem_append.1 ha with ha | ha
              · exact n3 a ha b (by simp [hb])
              · have h1 := hold b (by simp [hb])
                rw [hrefs, List.mem_range'_1] at ha
                omega)
            (by
              intro q hq
              apply hleaf1
              simp only [List.mem_append] at hq
              tauto)
          refine ⟨a1, a2, a3, ?_, fun q hq => a5 q (by simp [hq])⟩
          intro q hq
          rcases a4 q hq with ⟨g1, g2, g3, g4⟩ | g
          · rcases keep q g1 with ⟨k1, k2, k3, k4⟩ | ⟨k1, k2⟩
            · left
              exact ⟨k1, by rw [g2, k2], by rw [g3, k3], by rw [g4, k4]⟩
            · right
              refine ⟨a5 q (by simp [k1]), ?_⟩
              obtain ⟨m, hm, hm2⟩ := k2
              exact ⟨m, by rw [g2, hm], hm2⟩
          · exact Or.inr g

/-- `_expand_nodes` does not raise when all the candidates have a weight history. -/
theorem expandNodes_ok {c : Pt K d} {R : K} (ess : Option K) (nMin maxParts : ℕ) :
    ∀ (ps : List ℕ) (T : TPTree K d) (e : ℕ) (acc : List ℕ), Reached c R T e → ps.Nodup → (∀ p ∈ ps, p ∈ T.leaves) →
      (∀ p ∈ ps, ∀ n, T.nodes[p]? = some n → n.weightHist ≠ none) →
      ∃ r, expandNodes ess nMin maxParts T ps acc = .ok r
  | [], T, e, acc, r, hnd, hl, hh => ⟨_, rfl⟩
  | p :: ps, T, e, acc, r, hnd, hl, hh => by
    rw [List.nodup_cons] at hnd
    have I := r.wf
    obtain ⟨n, hn, hlf⟩ := I.leaf_node (hl p (by simp))
    have hs : ∃ b, shouldExpand n ess nMin = .ok b := by
      cases ess with
      | none => exact ⟨true, rfl⟩
      | some t =>
        cases hw : n.weightHist with
        | none => exact absurd hw (hh p (by simp) n hn)
        | some h =>
          simp only [shouldExpand, hw]
          split_ifs <;> exact ⟨_, rfl⟩
    obtain ⟨b, hb⟩ := hs
    have hx : ∃ o, T.expand p ess nMin = .ok o := by
      unfold TPTree.expand
      rw [hn]
      simp only [hlf, hb]
      cases b <;> exact ⟨_, rfl⟩
    obtain ⟨⟨T1, o⟩, hx⟩ := hx
    have r1 := r.expand hx
    simp only [expandNodes, hx]
    rcases expand_cases hx with ⟨rfl, rfl, _⟩ | ⟨n, hn, hlf, _, rfl, rfl⟩
    · exact expandNodes_ok ess nMin maxParts ps T1 e _ r hnd.2 (fun q hq => hl q (by simp [hq]))
        (fun q hq => hh q (by simp [hq]))
    · simp only
      split_ifs
      · exact ⟨_, rfl⟩
      · have hne : ∀ q ∈ ps, q ≠ p := by
          rintro q hq rfl
          exact hnd.1 hq
        apply expandNodes_ok ess nMin maxParts ps _ _ _ r1 hnd.2
        · intro q hq
          rw [insertChildren_leaves I hn hlf]
          exact Or.inl ⟨hl q (by simp [hq]), hne q hq⟩
        · intro q hq m hm
          rw [(insertChildren_old I (hne q hq) (I.leaf_lt (hl q (by simp [hq])))).1] at hm
          exact hh q (by simp [hq]) m hm

end TPTree
end Verif
