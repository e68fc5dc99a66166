import Verif.Props.HiDaisee

/-!
# HiDaisee: C37
-/

set_option linter.unusedSectionVars false
set_option autoImplicit false

namespace Verif
namespace HiD

section partialMass
variable {K : Type*} [Field K] [LinearOrder K] [IsStrictOrderedRing K] {d : ℕ} {target : Pt K d → XF K} {lo hi : Pt K d}

/-- The mass of inner node `a` is the sum of the masses of its children. -/
def MassOK (nodes : List (Node K d)) (a : ℕ) : Prop :=
  ∃ n l r nl nr, nodes[a]? = some n ∧ n.left = some l ∧ n.right = some r ∧ nodes[l]? = some nl ∧ nodes[r]? = some nr ∧
    n.q = nl.q + nr.q

/-- `a` is an inner node whose children come later. -/
def Inner (nodes : List (Node K d)) (a : ℕ) : Prop :=
  ∃ n l r, nodes[a]? = some n ∧ n.left = some l ∧ n.right = some r ∧ a < l ∧ a < r ∧ l < nodes.length ∧ r < nodes.length

theorem refreshQ_get (nodes : List (Node K d)) (b a : ℕ) :
    (refreshQ nodes b)[a]? = if b = a then (nodes[a]?).map fun n =>
      { n with q := ((n.left.bind (nodes[·]?)).map Node.q).getD XF.nan + ((n.right.bind (nodes[·]?)).map Node.q).getD XF.nan }
    else nodes[a]? := by
  unfold refreshQ
  rw [List.getElem?_modify]
  split
  · rfl
  · simp

theorem refreshQ_inner {nodes : List (Node K d)} {a : ℕ} (h : Inner nodes a) (b : ℕ) : Inner (refreshQ nodes b) a := by
  obtain ⟨n, l, r, h1, h2, h3, h4, h5, h6, h7⟩ := h
  have hlen : (refreshQ nodes b).length = nodes.length := by unfold refreshQ; simp
  by_cases hb : b = a
  · exact ⟨{ n with q := ((n.left.bind (nodes[·]?)).map Node.q).getD XF.nan + ((n.right.bind (nodes[·]?)).map Node.q).getD XF.nan }, l, r,
      by rw [refreshQ_get, if_pos hb, h1]; rfl, h2, h3, h4, h5, by rw [hlen]; exact h6, by rw [hlen]; exact h7⟩
  · exact ⟨n, l, r, by rw [refreshQ_get, if_neg hb, h1], h2, h3, h4, h5, by rw [hlen]; exact h6, by rw [hlen]; exact h7⟩

theorem refreshQ_ok {nodes : List (Node K d)} {a : ℕ} (h : Inner nodes a) : MassOK (refreshQ nodes a) a := by
  obtain ⟨n, l, r, h1, h2, h3, h4, h5, h6, h7⟩ := h
  refine ⟨{ n with q := ((n.left.bind (nodes[·]?)).map Node.q).getD XF.nan + ((n.right.bind (nodes[·]?)).map Node.q).getD XF.nan }, l, r,
    nodes[l], nodes[r], by rw [refreshQ_get, if_pos rfl, h1]; rfl, h2, h3, ?_, ?_, ?_⟩
  · rw [refreshQ_get, if_neg (by omega), List.getElem?_eq_getElem h6]
  · rw [refreshQ_get, if_neg (by omega), List.getElem?_eq_getElem h7]
  · simp [h2, h3, h6, h7]

theorem refreshQ_keep {nodes : List (Node K d)} {a b : ℕ} (h : Inner nodes a) (hm : MassOK nodes a) (hb : b ≤ a) :
    MassOK (refreshQ nodes b) a := by
  rcases hb.eq_or_lt with rfl | hb
  · exact refreshQ_ok h
  · obtain ⟨n, l, r, h1, h2, h3, h4, h5, h6, h7⟩ := h
    obtain ⟨n', l', r', nl, nr, e1, e2, e3, e4, e5, e6⟩ := hm
    rw [h1] at e1
    cases e1
    rw [h2] at e2
    rw [h3] at e3
    cases e2
    cases e3
    exact ⟨n, l, r, nl, nr, by rw [refreshQ_get, if_neg (by omega), h1], h2, h3,
      by rw [refreshQ_get, if_neg (by omega), e4], by rw [refreshQ_get, if_neg (by omega), e5], e6⟩

theorem refreshQ_fold (R : List ℕ) : ∀ (nodes : List (Node K d)), (∀ a ∈ R, Inner nodes a) → R.Pairwise (· ≥ ·) →
    (∀ a, Inner nodes a → MassOK nodes a → (∀ b ∈ R, b ≤ a) → MassOK (R.foldl refreshQ nodes) a) ∧
    ∀ a ∈ R, MassOK (R.foldl refreshQ nodes) a := by
  induction R with
  | nil => intro nodes _ _; exact ⟨fun a _ h _ => h, fun a h => by cases h⟩
  | cons b R ih =>
    intro nodes hin hp
    rw [List.pairwise_cons] at hp
    obtain ⟨h1, h2⟩ := ih (refreshQ nodes b) (fun a ha => refreshQ_inner (hin a (List.mem_cons_of_mem _ ha)) b) hp.2
    rw [List.foldl_cons]
    refine ⟨?_, ?_⟩
    · intro a ha hm hle
      exact h1 a (refreshQ_inner ha b) (refreshQ_keep ha hm (hle b List.mem_cons_self)) fun c hc =>
        hle c (List.mem_cons_of_mem _ hc)
    · intro a ha
      rcases List.mem_cons.1 ha with rfl | ha
      · exact h1 a (refreshQ_inner (hin a List.mem_cons_self) a) (refreshQ_ok (hin a List.mem_cons_self)) fun c hc => hp.1 c hc
      · exact h2 a ha

theorem select_path {T : Tree K d} (hg : Good lo hi target T) (rs : ℕ → K) : ∀ (fuel k : ℕ) (P : List ℕ) (id : ℕ) (P' : List ℕ)
    (id' : ℕ), T.select rs fuel k P id = .ok (P', id') →
    ∃ Q, P' = P ++ Q ∧ Q.Pairwise (· < ·) ∧ (∀ a ∈ Q, id ≤ a ∧ a ∉ T.leaves ∧ Inner T.nodes a) ∧ (id ∉ T.leaves → id ∈ Q)
  | fuel, k, P, id, P', id', h => by
    unfold Tree.select at h
    split at h
    · rename_i hm
      cases h
      exact ⟨[], by simp, List.Pairwise.nil, by simp, fun h => absurd hm h⟩
    · rename_i hm
      split at h
      · cases h
      · rename_i fuel
        split at h
        · cases h
        · rename_i n hn
          obtain ⟨l, r, e1, e2, h3, h4, h5, h6⟩ := hg.inner id n hn hm
          rw [e1, e2] at h
          simp only [List.getElem?_eq_getElem h5, List.getElem?_eq_getElem h6] at h
          have key : ∀ m, id < m → T.select rs fuel (k + 1) (P ++ [id]) m = .ok (P', id') →
              ∃ Q, P' = P ++ Q ∧ Q.Pairwise (· < ·) ∧ (∀ a ∈ Q, id ≤ a ∧ a ∉ T.leaves ∧ Inner T.nodes a) ∧
                (id ∉ T.leaves → id ∈ Q) := by
            intro m hidm h
            obtain ⟨Q, q1, q2, q3, -⟩ := select_path hg rs fuel _ _ m _ _ h
            refine ⟨id :: Q, by rw [q1]; simp, List.pairwise_cons.2 ⟨fun a ha => lt_of_lt_of_le hidm (q3 a ha).1, q2⟩, ?_,
              fun _ => List.mem_cons_self⟩
            intro a ha
            rcases List.mem_cons.1 ha with rfl | ha
            · exact ⟨le_refl _, hm, n, l, r, hn, e1, e2, h3, h4, h5, h6⟩
            · exact ⟨hidm.le.trans (q3 a ha).1, (q3 a ha).2⟩
          split at h
          · exact key l h3 h
          · exact key r h4 h

/-- **C37**, what holds: after an iteration the mass of every node visited on the way down to the leaf, except the parent
of the leaf (unless that is the root), is the sum of the masses of its children. `P` lists the nodes visited, the root twice. -/
theorem C37_partial (hbox : ∀ i, lo i < hi i) {T T' : Tree K d} (h : TReach lo hi target T) {c : Cfg K} {t k : ℕ}
    {it : Iter K d} (hs : iterate c target t it T = .ok (T', k)) :
    ∃ P id, T.select it.rs T.nodes.length 0 [0] 0 = .ok (P, id) ∧ (∀ a ∈ P.dropLast, MassOK T'.nodes a) ∧
      (0 ∉ T.leaves → MassOK T'.nodes 0) := by
  have hg := treach_good hbox h
  have hs' := hs
  unfold iterate at hs
  split at hs
  · cases hs
  · rename_i P id hsel
    have hid := select_mem T it.rs _ _ _ _ _ _ hsel
    obtain ⟨Q, q1, q2, q3, q4⟩ := select_path hg it.rs _ _ _ _ _ _ hsel
    have hP0 : ∀ a ∈ P.dropLast, a ∉ T.leaves ∧ Inner T.nodes a := by
      intro a ha
      have hQ : Q ≠ [] := by
        rintro rfl
        rw [q1] at ha
        simp at ha
      have ha' : a ∈ [0] ++ Q := q1 ▸ List.mem_of_mem_dropLast ha
      rcases List.mem_append.1 ha' with h0 | h0
      · rw [List.mem_singleton.1 h0]
        have : 0 ∉ T.leaves := by
          intro h0
          unfold Tree.select at hsel
          rw [if_pos h0] at hsel
          cases hsel
          simp at q1
          exact hQ q1
        exact (q3 0 (q4 this)).2
      · exact (q3 a h0).2
    have hroot : 0 ∉ T.leaves → 0 ∈ P.dropLast := by
      intro h0
      have hQ : Q ≠ [] := by
        rintro rfl
        exact absurd (q4 h0) (by simp)
      rw [q1, List.dropLast_append_of_ne_nil hQ]
      simp
    have hsorted : P.dropLast.reverse.Pairwise (· ≥ ·) := by
      rw [List.pairwise_reverse]
      have : P.Pairwise (· ≤ ·) := by
        rw [q1]
        exact List.pairwise_cons.2 ⟨fun a _ => Nat.zero_le a, q2.imp le_of_lt⟩
      exact this.sublist (List.dropLast_sublist P)
    refine ⟨P, id, hsel, ?_⟩
    suffices hmain : ∀ a ∈ P.dropLast, MassOK T'.nodes a from ⟨hmain, fun h0 => hmain 0 (hroot h0)⟩
    split at hs
    · cases hs
    · rename_i n hn
      have hlt : id < T.nodes.length := (List.getElem?_eq_some_iff.1 hn).1
      simp only at hs
      split at hs
      · cases hs
      · set x := n.sampler.sample1 it.u
        set n1 := n.addSample x (target x / n.sampler.prob1 x) with hn1
        set n2 : Node K d := { n1 with q := (n1.mean + c.boost t n1.N) / totalEv c t ⟨T.nodes.set id n1, T.leaves⟩ }
          with hn2
        set T2 : Tree K d := ⟨P.dropLast.reverse.foldl refreshQ (T.nodes.set id n2), T.leaves⟩ with hT2
        have hne : ∀ a ∈ P.dropLast, a ≠ id := by
          rintro a ha rfl
          exact (hP0 a ha).1 hid
        have hin : ∀ a ∈ P.dropLast.reverse, Inner (T.nodes.set id n2) a := by
          intro a ha
          rw [List.mem_reverse] at ha
          obtain ⟨m, l, r, h1, h2⟩ := (hP0 a ha).2
          exact ⟨m, l, r, by rw [List.getElem?_set, if_neg (Ne.symm (hne a ha))]; exact h1, by simpa using h2⟩
        have hT2ok : ∀ a ∈ P.dropLast, MassOK T2.nodes a := fun a ha =>
          (refreshQ_fold _ _ hin hsorted).2 a (List.mem_reverse.2 ha)
        split at hs
        · cases hsp : T2.split id it.j target with
          | error e => rw [hsp] at hs; cases hs
          | ok T3 =>
            rw [hsp] at hs
            have := Except.ok.inj hs
            simp only [Prod.mk.injEq] at this
            obtain ⟨rfl, -⟩ := this
            intro a ha
            obtain ⟨m, l, r, nl, nr, h1, h2, h3, h4, h5, h6⟩ := hT2ok a ha
            unfold Tree.split at hsp
            split at hsp
            · cases hsp
            · rename_i n' hn'
              split at hsp
              · cases hsp
              · split at hsp
                · cases hsp
                · rw [if_pos (show id ∈ T2.leaves from hid)] at hsp
                  cases hsp
                  have hq : ∀ (X Y : Node K d) (b : ℕ) nb, T2.nodes[b]? = some nb → ∃ nb', (T2.nodes.set id
                      { n' with left := some T2.nodes.length, right := some (T2.nodes.length + 1), samples := none } ++
                      [X, Y])[b]? = some nb' ∧ nb'.q = nb.q ∧ (b ≠ id → nb' = nb) := by
                    intro X Y b nb hb
                    have hbl : b < T2.nodes.length := (List.getElem?_eq_some_iff.1 hb).1
                    rw [List.getElem?_append_left (by simpa using hbl), List.getElem?_set]
                    by_cases hbi : id = b
                    · subst hbi
                      rw [if_pos rfl, if_pos hbl]
                      rw [hn'] at hb
                      cases hb
                      exact ⟨_, rfl, rfl, fun h => absurd rfl h⟩
                    · rw [if_neg hbi]
                      exact ⟨nb, hb, rfl, fun _ => rfl⟩
                  obtain ⟨m', e1, -, e2⟩ := hq _ _ a m h1
                  have := e2 (hne a ha)
                  subst this
                  obtain ⟨nl', f1, f2, -⟩ := hq _ _ l nl h4
                  obtain ⟨nr', g1, g2, -⟩ := hq _ _ r nr h5
                  exact ⟨m', l, r, nl', nr', e1, h2, h3, f1, g1, by rw [h6, f2, g2]⟩
        · have := Except.ok.inj hs
          simp only [Prod.mk.injEq] at this
          rw [← this.1]
          exact hT2ok

end partialMass

/-! ### Refutation -/

section refuted

/-- A node of a tree over an interval. -/
noncomputable def nd (c r : ℝ) (q : XF ℝ) (l rr : Option ℕ) (s : Option (List (Pt ℝ 1))) (w : List (XF ℝ)) (N : ℕ)
    (e : XF ℝ) : Node ℝ 1 := ⟨![c], ![r], q, l, rr, s, w, N, e⟩

/-- Target of the witness: 1 right of `-4/5`, 0 elsewhere. -/
noncomputable def tgt (x : Pt ℝ 1) : XF ℝ := if -4/5 < x 0 then XF.fin 1 else XF.fin 0

theorem fin1_eq (f : Pt ℝ 1) : f = ![f 0] := by
  funext i
  rw [Fin.fin_one_eq_zero i]
  rfl

theorem nd_sample (c r u : ℝ) (q l rr s w N e) :
    (nd c r q l rr s w N e).sampler.sample1 ![u] = ![c - r + 2 * r * u] := by
  rw [fin1_eq (Uniform.sample1 _ _)]
  congr 1
  show c - r + ((c + r) - (c - r)) * u = _
  ring

theorem nd_prob {c r x : ℝ} (hr : 0 < r) (h1 : c - r < x) (h2 : x ≤ c + r) (q l rr s w N e) :
    (nd c r q l rr s w N e).sampler.prob1 ![x] = XF.fin (1 / (2 * r)) := by
  have hv : (nd c r q l rr s w N e).vol = 2 * r := by simp [Node.vol, nd]
  rw [prob1_has, hv]
  · intro i
    rw [Fin.fin_one_eq_zero i]
    exact hr
  · intro i
    rw [Fin.fin_one_eq_zero i]
    exact ⟨h1, h2⟩

theorem nd_add (c r x : ℝ) (q l rr s w N e a) : (nd c r q l rr (some s) w N e).addSample ![x] a =
    nd c r q l rr (some (s ++ [![x]])) (w ++ [a]) (s.length + 1)
      (((w ++ [a]).sum * (w ++ [a]).sum) / ((w ++ [a]).map fun w => w * w).sum) := by
  simp [Node.addSample, nd]

theorem nd_samples (c r : ℝ) (q l rr s w N e) : (nd c r q l rr s w N e).samples = s := rfl

theorem nd_children (c r : ℝ) (q l rr s w N e) : children (nd c r q l rr s w N e) 0 =
    (nd (c - r / 2) (r / 2) (q / XF.fin 2) none none (some []) [] 0 (XF.fin 0),
     nd (c + r / 2) (r / 2) (q / XF.fin 2) none none (some []) [] 0 (XF.fin 0)) := by
  have e1 : ∀ (v : Pt ℝ 1) (y : ℝ), Function.update v 0 y = ![y] := fun v y => by
    rw [fin1_eq (Function.update _ _ _)]
    simp
  simp [children, Node.new, nd, e1]

noncomputable def T1 : Tree ℝ 1 := ⟨[nd 0 1 XF.nan none none (some [![-3/4]]) [XF.fin 2] 1 (XF.fin 1)], [0]⟩

noncomputable def T2 : Tree ℝ 1 :=
  ⟨[nd 0 1 (XF.fin 1) (some 1) (some 2) none [XF.fin 2, XF.fin 0] 2 (XF.fin 1),
    nd (-1/2) (1/2) (XF.fin (1/2)) none none (some [![-3/4], ![-7/8]]) [XF.fin 1, XF.fin 0] 2 (XF.fin 1),
    nd (1/2) (1/2) (XF.fin (1/2)) none none (some []) [] 0 (XF.fin 0)], [1, 2]⟩

noncomputable def T3 : Tree ℝ 1 :=
  ⟨[nd 0 1 (XF.fin (3/2)) (some 1) (some 2) none [XF.fin 2, XF.fin 0] 2 (XF.fin 1),
    nd (-1/2) (1/2) (XF.fin 1) (some 3) (some 4) none [XF.fin 1, XF.fin 0, XF.fin 1] 3 (XF.fin 2),
    nd (1/2) (1/2) (XF.fin (1/2)) none none (some []) [] 0 (XF.fin 0),
    nd (-3/4) (1/4) (XF.fin (1/2)) none none (some [![-3/4], ![-7/8], ![-3/4]]) [XF.fin (1/2), XF.fin 0, XF.fin (1/2)] 3
      (XF.fin 2),
    nd (-1/4) (1/4) (XF.fin (1/2)) none none (some []) [] 0 (XF.fin 0)], [2, 3, 4]⟩

noncomputable def T4 : Tree ℝ 1 :=
  ⟨[nd 0 1 (XF.fin (3/2)) (some 1) (some 2) none [XF.fin 2, XF.fin 0] 2 (XF.fin 1),
    nd (-1/2) (1/2) (XF.fin 1) (some 3) (some 4) none [XF.fin 1, XF.fin 0, XF.fin 1] 3 (XF.fin 2),
    nd (1/2) (1/2) (XF.fin (1/2)) none none (some []) [] 0 (XF.fin 0),
    nd (-3/4) (1/4) (XF.fin 1) none none (some [![-3/4], ![-7/8], ![-3/4], ![-3/4]])
      [XF.fin (1/2), XF.fin 0, XF.fin (1/2), XF.fin (1/2)] 4 (XF.fin 3),
    nd (-1/4) (1/4) (XF.fin (1/2)) none none (some []) [] 0 (XF.fin 0)], [2, 3, 4]⟩

/-- Defaults of the sampler with one sample required before a cut. -/
noncomputable def cfg (σ : ℝ) : Cfg ℝ := ⟨realBoost σ, 1, 7/10⟩

theorem init_eq : (Tree.init ![-1] ![1] : Tree ℝ 1) = ⟨[nd 0 1 (XF.fin 0) none none (some []) [] 0 (XF.fin 0)], [0]⟩ := by
  unfold Tree.init Node.new nd
  rw [fin1_eq fun i : Fin 1 => ((![1] : Pt ℝ 1) i + (![-1] : Pt ℝ 1) i) / 2,
    fin1_eq fun i : Fin 1 => ((![1] : Pt ℝ 1) i - (![-1] : Pt ℝ 1) i) / 2]
  norm_num

theorem step1 (σ : ℝ) : iterate (cfg σ) tgt 0 ⟨fun _ => 0, ![1/8], 0⟩ (Tree.init ![-1] ![1] : Tree ℝ 1) = .ok (T1, 1) := by
  rw [init_eq]
  have hp : ∀ q l rr s w N e, (nd 0 1 q l rr s w N e).sampler.prob1 ![-3/4] = XF.fin (1/2) := fun q l rr s w N e => by
    rw [nd_prob] <;> norm_num
  have hx : ∀ q l rr s w N e, (nd 0 1 q l rr s w N e).sampler.sample1 ![1/8] = ![-3/4] := fun q l rr s w N e => by
    rw [nd_sample]; norm_num
  have ht : tgt ![-3/4] = XF.fin 1 := by norm_num [tgt]
  unfold iterate Tree.select
  simp only [List.mem_singleton, if_true, List.getElem?_cons_zero, hx, hp, ht, nd_add]
  norm_num [XF.ltb, XF.fin_div, cfg, realBoost, T1, nd]

theorem tgt_a : tgt ![-3/4] = XF.fin 1 := by norm_num [tgt]

theorem tgt_b : tgt ![-7/8] = XF.fin 0 := by norm_num [tgt]

theorem split2 : (⟨[nd 0 1 (XF.fin 1) none none (some [![-3/4], ![-7/8]]) [XF.fin 2, XF.fin 0] 2 (XF.fin 1)], [0]⟩ :
    Tree ℝ 1).split 0 0 tgt = .ok T2 := by
  have hl : ∀ q l rr s w N e, (nd (-1/2) (1/2) q l rr s w N e).sampler.prob1 ![-3/4] = XF.fin (1) := fun q l rr s w N e => by
    rw [nd_prob] <;> norm_num
  have hm : ∀ q l rr s w N e, (nd (-1/2) (1/2) q l rr s w N e).sampler.prob1 ![-7/8] = XF.fin (1) := fun q l rr s w N e => by
    rw [nd_prob] <;> norm_num
  have hc : (0 : ℝ) - 1 / 2 = -1/2 := by norm_num
  have hc' : (0 : ℝ) + 1 / 2 = 1/2 := by norm_num
  have l1 : ∀ q l rr s w N e x, (![x] : Pt ℝ 1) 0 < (nd (-1/2) (1/2) q l rr s w N e).center 0 +
      (nd (-1/2) (1/2) q l rr s w N e).radius 0 ↔ x < 0 := fun q l rr s w N e x => by norm_num [nd]
  have n1 : (-3/4 : ℝ) < 0 := by norm_num
  have n2 : (-7/8 : ℝ) < 0 := by norm_num
  have pa : ∀ q l rr s w N e R, push tgt 0 (nd (-1/2) (1/2) q l rr (some s) w N e, R) ![-3/4] =
      .ok ((nd (-1/2) (1/2) q l rr (some s) w N e).addSample ![-3/4] (XF.fin (1)), R) := fun q l rr s w N e R => by
    unfold push
    rw [if_pos ((l1 q l rr (some s) w N e (-3/4)).2 n1), hl, tgt_a]
    norm_num [XF.leb, XF.fin_div]
  have pb : ∀ q l rr s w N e R, push tgt 0 (nd (-1/2) (1/2) q l rr (some s) w N e, R) ![-7/8] =
      .ok ((nd (-1/2) (1/2) q l rr (some s) w N e).addSample ![-7/8] (XF.fin (0)), R) := fun q l rr s w N e R => by
    unfold push
    rw [if_pos ((l1 q l rr (some s) w N e (-7/8)).2 n2), hm, tgt_b]
    norm_num [XF.leb, XF.fin_div]
  unfold Tree.split
  simp only [List.getElem?_cons_zero, nd_children, hc, hc']
  simp only [nd_samples]
  simp only [List.foldlM_cons, List.foldlM_nil, pa, pb, nd_add, bind, Except.bind, pure, Except.pure]
  norm_num [XF.leb, XF.fin_div, T2, nd, pure, bind, Except.pure, Except.bind]

theorem step2 (σ : ℝ) : iterate (cfg σ) tgt 1 ⟨fun _ => 0, ![1/16], 0⟩ T1 = .ok (T2, 3) := by
  have hp : ∀ q l rr s w N e, (nd (0) (1) q l rr s w N e).sampler.prob1 ![-7/8] = XF.fin (1/2) := fun q l rr s w N e => by
    rw [nd_prob] <;> norm_num
  have hx : ∀ q l rr s w N e, (nd (0) (1) q l rr s w N e).sampler.sample1 ![1/16] = ![-7/8] := fun q l rr s w N e => by
    rw [nd_sample]; norm_num
  have hsp := split2
  unfold iterate Tree.select T1
  simp only [List.mem_singleton, if_true, List.getElem?_cons_zero, hx, hp, tgt_b, nd_add]
  norm_num [XF.ltb, XF.fin_div, cfg, realBoost, totalEv, nd, Node.mean] at hsp ⊢
  rw [hsp]
  rfl

theorem split3 : (⟨[nd 0 1 (XF.fin (3/2)) (some 1) (some 2) none [XF.fin 2, XF.fin 0] 2 (XF.fin 1),
    nd (-1/2) (1/2) (XF.fin 1) none none (some [![-3/4], ![-7/8], ![-3/4]]) [XF.fin 1, XF.fin 0, XF.fin 1] 3 (XF.fin 2),
    nd (1/2) (1/2) (XF.fin (1/2)) none none (some []) [] 0 (XF.fin 0)], [1, 2]⟩ : Tree ℝ 1).split 1 0 tgt = .ok T3 := by
  have hl : ∀ q l rr s w N e, (nd (-3/4) (1/4) q l rr s w N e).sampler.prob1 ![-3/4] = XF.fin (2) := fun q l rr s w N e => by
    rw [nd_prob] <;> norm_num
  have hm : ∀ q l rr s w N e, (nd (-3/4) (1/4) q l rr s w N e).sampler.prob1 ![-7/8] = XF.fin (2) := fun q l rr s w N e => by
    rw [nd_prob] <;> norm_num
  have hc : (-1/2 : ℝ) - 1 / 4 = -3/4 := by norm_num
  have hc' : (-1/2 : ℝ) + 1 / 4 = -1/4 := by norm_num
  have hc2 : (1/2 : ℝ) / 2 = 1/4 := by norm_num
  have l1 : ∀ q l rr s w N e x, (![x] : Pt ℝ 1) 0 < (nd (-3/4) (1/4) q l rr s w N e).center 0 +
      (nd (-3/4) (1/4) q l rr s w N e).radius 0 ↔ x < -1/2 := fun q l rr s w N e x => by norm_num [nd]
  have n1 : (-3/4 : ℝ) < -1/2 := by norm_num
  have n2 : (-7/8 : ℝ) < -1/2 := by norm_num
  have pa : ∀ q l rr s w N e R, push tgt 0 (nd (-3/4) (1/4) q l rr (some s) w N e, R) ![-3/4] =
      .ok ((nd (-3/4) (1/4) q l rr (some s) w N e).addSample ![-3/4] (XF.fin (1/2)), R) := fun q l rr s w N e R => by
    unfold push
    rw [if_pos ((l1 q l rr (some s) w N e (-3/4)).2 n1), hl, tgt_a]
    norm_num [XF.leb, XF.fin_div]
  have pb : ∀ q l rr s w N e R, push tgt 0 (nd (-3/4) (1/4) q l rr (some s) w N e, R) ![-7/8] =
      .ok ((nd (-3/4) (1/4) q l rr (some s) w N e).addSample ![-7/8] (XF.fin (0)), R) := fun q l rr s w N e R => by
    unfold push
    rw [if_pos ((l1 q l rr (some s) w N e (-7/8)).2 n2), hm, tgt_b]
    norm_num [XF.leb, XF.fin_div]
  unfold Tree.split
  simp only [List.getElem?_cons_zero, List.getElem?_cons_succ, nd_children, hc2, hc, hc']
  simp only [nd_samples]
  simp only [List.foldlM_cons, List.foldlM_nil, pa, pb, nd_add, bind, Except.bind, pure, Except.pure]
  norm_num [XF.leb, XF.fin_div, T3, nd, pure, bind, Except.pure, Except.bind]

theorem step3 (σ : ℝ) (hσ : 0 ≤ σ) : iterate (cfg σ) tgt 2 ⟨fun _ => 0, ![1/4], 0⟩ T2 = .ok (T3, 4) := by
  have hp : ∀ q l rr s w N e, (nd (-1/2) (1/2) q l rr s w N e).sampler.prob1 ![-3/4] = XF.fin (1) := fun q l rr s w N e => by
    rw [nd_prob] <;> norm_num
  have hx : ∀ q l rr s w N e, (nd (-1/2) (1/2) q l rr s w N e).sampler.sample1 ![1/4] = ![-3/4] := fun q l rr s w N e => by
    rw [nd_sample]; norm_num
  have hsp := split3
  have h0 : 0 ≤ σ * (Real.sqrt (Real.log 2) / Real.sqrt 3) := by positivity
  have h1 : (2/3 : ℝ) + σ * (Real.sqrt (Real.log 2) / Real.sqrt 3) ≠ 0 := by linarith
  have hsel : T2.select (fun _ => 0) 3 0 [0] 0 = .ok ([0, 0], 1) := by
    norm_num [Tree.select, T2, nd, XF.fin_div, XF.ltb]
  unfold iterate
  rw [show T2.nodes.length = 3 from rfl, hsel]
  unfold T2
  simp only [List.getElem?_cons_zero, List.getElem?_cons_succ, hx, hp, tgt_a, nd_add]
  norm_num [XF.ltb, XF.fin_div, cfg, realBoost, totalEv, nd, Node.mean, refreshQ, h1] at hsp ⊢
  rw [hsp]
  rfl

theorem step4 (σ : ℝ) (hσ : 0 ≤ σ) : iterate (cfg σ) tgt 3 ⟨fun _ => 0, ![1/2], 0⟩ T3 = .ok (T4, 1) := by
  have hp : ∀ q l rr s w N e, (nd (-3/4) (1/4) q l rr s w N e).sampler.prob1 ![-3/4] = XF.fin (2) := fun q l rr s w N e => by
    rw [nd_prob] <;> norm_num
  have hx : ∀ q l rr s w N e, (nd (-3/4) (1/4) q l rr s w N e).sampler.sample1 ![1/2] = ![-3/4] := fun q l rr s w N e => by
    rw [nd_sample]; norm_num
  have h0 : 0 ≤ σ * (Real.sqrt (Real.log 3) / Real.sqrt 4) := by positivity
  have h1 : (3/8 : ℝ) + σ * (Real.sqrt (Real.log 3) / Real.sqrt 4) ≠ 0 := by linarith
  have hsel : T3.select (fun _ => 0) 5 0 [0] 0 = .ok ([0, 0, 1], 3) := by
    norm_num [Tree.select, T3, nd, XF.fin_div, XF.ltb]
  unfold iterate
  rw [show T3.nodes.length = 5 from rfl, hsel]
  unfold T3
  simp only [List.getElem?_cons_zero, List.getElem?_cons_succ, hx, hp, tgt_a, nd_add]
  norm_num [XF.ltb, XF.fin_div, cfg, realBoost, totalEv, nd, Node.mean, refreshQ, h1, T4]

/-- The witness: four iterations of the sampler for the interval from -1 to 1, with `n_min = 1`, `ess_target = 0.7` and
any `sigma ≥ 0`. -/
theorem C37_refuted (σ : ℝ) (hσ : 0 ≤ σ) : ∃ (its : Fin 4 → Iter ℝ 1) (S : Sampler ℝ 1),
    iterations (⟨realBoost σ, 1, 7/10⟩ : Cfg ℝ) tgt 0 (List.ofFn its) (reset ![-1] ![1]) = .ok S ∧
    TReach ![-1] ![1] tgt S.T ∧
    ∃ n nl nr : Node ℝ 1, S.T.nodes[1]? = some n ∧ n.left = some 3 ∧ n.right = some 4 ∧
      S.T.nodes[3]? = some nl ∧ S.T.nodes[4]? = some nr ∧
      n.q = XF.fin 1 ∧ nl.q = XF.fin 1 ∧ nr.q = XF.fin (1/2) ∧ n.q ≠ nl.q + nr.q ∧ ¬ MassOK S.T.nodes 1 := by
  refine ⟨![⟨fun _ => 0, ![1/8], 0⟩, ⟨fun _ => 0, ![1/16], 0⟩, ⟨fun _ => 0, ![1/4], 0⟩, ⟨fun _ => 0, ![1/2], 0⟩],
    { reset ![-1] ![1] with T := T4, numQ := 4, numPi := 9, numQEval := 9 }, ?_, ?_, ?_⟩
  · have h1 := step1 σ
    have h2 := step2 σ
    have h3 := step3 σ hσ
    have h4 := step4 σ hσ
    unfold cfg at h1 h2 h3 h4
    simp only [List.ofFn_succ, List.ofFn_zero, Matrix.cons_val_zero, Matrix.cons_val_succ, iterations, reset, h1, h2, h3, h4]
  · exact ((((TReach.new).iter (step1 σ)).iter (step2 σ)).iter (step3 σ hσ)).iter (step4 σ hσ)
  · have hne : (XF.fin 1 : XF ℝ) ≠ XF.fin 1 + XF.fin (1/2) := by norm_num
    refine ⟨_, _, _, rfl, rfl, rfl, rfl, rfl, rfl, rfl, rfl, hne, ?_⟩
    rintro ⟨n, l, r, nl, nr, h1, h2, h3, h4, h5, h6⟩
    cases h1
    cases h2
    cases h3
    cases h4
    cases h5
    exact hne h6

/-- Non-vacuity of `C37_partial`: the fourth iteration of the witness starts from a tree whose root is not a leaf. -/
example : ∃ T T' : Tree ℝ 1, TReach ![-1] ![1] tgt T ∧
    iterate (cfg 1) tgt 3 ⟨fun _ => 0, ![1/2], 0⟩ T = .ok (T', 1) ∧ 0 ∉ T.leaves ∧ MassOK T'.nodes 0 :=
  ⟨T3, T4, (((TReach.new).iter (step1 1)).iter (step2 1)).iter (step3 1 one_pos.le), step4 1 one_pos.le, by simp [T3],
    (C37_partial (by intro i; rw [Fin.fin_one_eq_zero i]; norm_num)
      ((((TReach.new).iter (step1 1)).iter (step2 1)).iter (step3 1 one_pos.le)) (step4 1 one_pos.le)).choose_spec.choose_spec.2.2
      (by simp [T3])⟩

end refuted

end HiD
end Verif
