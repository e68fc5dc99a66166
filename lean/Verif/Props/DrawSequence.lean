import Verif.Model.DrawSequence
import Mathlib.Data.List.Nodup
import Mathlib.Data.List.Perm.Basic
import Mathlib.Tactic.Linarith

/-!
# C155: a drawn sequence shows the last item of every identifier
-/

set_option linter.unusedSectionVars false
set_option autoImplicit false

namespace Verif
namespace Viz

/-! ### Specification -/

/-- The drawing of an item: the parts it consists of. -/
def Item.parts (it : Item) : List Part :=
  match it.kind with
  | .axis ticks => .axisLine :: (List.range ticks).flatMap fun k => [.tickLine k, .tickLabel k]
  | .function => [.curve]
  | .point => [.dot]
  | .other => []

/-- `it` is the last item of the sequence with its identifier. -/
def IsLast (seq : List Item) (it : Item) : Prop := ∃ l r, seq = l ++ it :: r ∧ ∀ y ∈ r, y.id ≠ it.id

/-- `it` is replaced later: another item with the same identifier follows. -/
def Replaced (seq : List Item) (it : Item) : Prop := ∃ l r, seq = l ++ it :: r ∧ ∃ y ∈ r, y.id = it.id

/-- The plot shows each part of the last item of every identifier once, and nothing else. -/
def ShowsLast (seq : List Item) (S : State) : Prop :=
  (S.shown.map fun a => (a.item, a.part)).Nodup ∧
  ∀ it p, (it, p) ∈ (S.shown.map fun a => (a.item, a.part)) ↔ IsLast seq it ∧ p ∈ it.parts

/-! ### Proof -/

theorem IsLast.append_single {seq : List Item} {new x : Item} : IsLast (seq ++ [new]) x ↔ x = new ∨ IsLast seq x ∧ x.id ≠ new.id := by
  constructor
  · rintro ⟨l, r, h, hr⟩
    rcases List.eq_nil_or_concat r with rfl | ⟨r', y, rfl⟩
    · left
      have := List.append_inj_right' h rfl
      simp only [List.cons.injEq, and_true] at this
      exact this.symm
    · right
      rw [List.concat_eq_append] at h hr
      rw [← List.cons_append, ← List.append_assoc] at h
      have h1 := List.append_inj_left' h rfl
      have h2 := List.append_inj_right' h rfl
      simp only [List.cons.injEq, and_true] at h2
      subst h2
      exact ⟨⟨l, r', h1, fun y hy => hr y (by simp [hy])⟩, fun e => hr new (by simp) e.symm⟩
  · rintro (rfl | ⟨⟨l, r, rfl, hr⟩, hne⟩)
    · exact ⟨seq, [], rfl, by simp⟩
    · refine ⟨l, r ++ [new], by simp, ?_⟩
      intro y hy
      rcases List.mem_append.1 hy with hy | hy
      · exact hr y hy
      · rw [List.mem_singleton.1 hy]
        exact fun e => hne e.symm

/-- What holds after a part of the sequence: `cur` are the items on the plot with their objects. -/
structure Good (seq : List Item) (S : State) (cur : List (Item × List Artist)) : Prop where
  ids : S.ids = cur.map fun c => c.1.id
  nodup : S.ids.Nodup
  cover : ∀ x ∈ seq, x.id ∈ S.ids
  last : ∀ x, x ∈ cur.map Prod.fst ↔ IsLast seq x
  parts : ∀ c ∈ cur, c.2.map (fun a => (a.item, a.part)) = c.1.parts.map fun p => (c.1, p)
  len : S.items.length = cur.length
  items : ∀ (k : ℕ) (c : Item × List Artist), cur[k]? = some c → c.1.kind = .function → S.items[k]? = some (.elems c.2)
  shown : S.shown.Perm (cur.flatMap Prod.snd)

theorem number_content (n : ℕ) (it : Item) (ps : List Part) :
    (number n it ps).map (fun a => (a.item, a.part)) = ps.map fun p => (it, p) := by
  unfold number
  apply List.ext_getElem
  · simp
  · intro i h1 h2
    simp

/-- A supported item is drawn with all its parts. -/
theorem drawItem_ok {it : Item} (h : it.kind ≠ .other) (S : State) : ∃ d, drawItem it S =
    .ok ({ S with next := S.next + it.parts.length, shown := S.shown ++ number S.next it it.parts }, d) ∧
    (it.kind = .function → d = .elems (number S.next it it.parts)) := by
  unfold drawItem Item.parts
  cases hk : it.kind with
  | other => exact absurd hk h
  | function => exact ⟨_, rfl, fun _ => rfl⟩
  | point => exact ⟨_, rfl, fun h => by cases h⟩
  | axis t => exact ⟨_, rfl, fun h => by cases h⟩

theorem parts_nodup (it : Item) : it.parts.Nodup := by
  unfold Item.parts
  cases it.kind with
  | other => simp
  | function => simp
  | point => simp
  | axis t =>
    simp only [List.nodup_cons, List.mem_flatMap, List.mem_range, List.mem_cons, List.not_mem_nil, or_false, not_exists, not_and]
    refine ⟨fun k _ => by simp, ?_⟩
    rw [List.nodup_flatMap]
    refine ⟨fun k _ => by simp, ?_⟩
    refine List.nodup_range.imp ?_
    intro a b hab
    simp only [Function.onFun, List.disjoint_cons_left, List.mem_cons, List.not_mem_nil, or_false, not_or, List.disjoint_nil_left,
      and_true, reduceCtorEq, not_false_eq_true, true_and, Part.tickLine.injEq, Part.tickLabel.injEq]
    exact ⟨hab, hab⟩

/-- A new identifier. -/
theorem step_new {seq : List Item} {S : State} {cur : List (Item × List Artist)} (g : Good seq S cur) {it : Item}
    (hk : it.kind ≠ .other) (hid : it.id ∉ S.ids) : ∃ S' cur', step S it = .ok S' ∧ Good (seq ++ [it]) S' cur' := by
  have hidx : S.ids.idxOf? it.id = none := List.idxOf?_eq_none_iff.2 hid
  obtain ⟨d, hd, hf⟩ := drawItem_ok hk { S with ids := S.ids ++ [it.id] }
  refine ⟨{ next := S.next + it.parts.length, shown := S.shown ++ number S.next it it.parts, ids := S.ids ++ [it.id],
            items := S.items ++ [d] }, cur ++ [(it, number S.next it it.parts)], ?_, ?_⟩
  · unfold step
    rw [hidx]
    simp only [bind, pure, Except.pure]
    rw [hd]
    rfl
  · constructor
    · simp [g.ids]
    · simp only
      rw [List.nodup_append]
      refine ⟨g.nodup, by simp, ?_⟩
      intro a ha b hb
      rw [List.mem_singleton.1 hb]
      rintro rfl
      exact hid ha
    · intro x hx
      rcases List.mem_append.1 hx with hx | hx
      · exact List.mem_append_left _ (g.cover x hx)
      · rw [List.mem_singleton.1 hx]
        simp
    · intro x
      rw [IsLast.append_single, List.map_append, List.mem_append, g.last]
      simp only [List.map_cons, List.map_nil, List.mem_singleton]
      constructor
      · rintro (h | rfl)
        · right
          refine ⟨h, ?_⟩
          intro e
          obtain ⟨l, r, hs, -⟩ := h
          exact hid (e ▸ g.cover x (by rw [hs]; simp))
        · exact Or.inl rfl
      · rintro (rfl | ⟨h, -⟩)
        · exact Or.inr rfl
        · exact Or.inl h
    · intro c hc
      rcases List.mem_append.1 hc with hc | hc
      · exact g.parts c hc
      · rw [List.mem_singleton.1 hc]
        exact number_content _ _ _
    · simp [g.len]
    · intro k c hc hf'
      simp only
      rcases lt_or_ge k cur.length with hlt | hge
      · rw [List.getElem?_append_left hlt] at hc
        rw [List.getElem?_append_left (by rw [g.len]; exact hlt)]
        exact g.items k c hc hf'
      · rw [List.getElem?_append_right hge] at hc
        rw [List.getElem?_append_right (by rw [g.len]; exact hge), g.len]
        cases hj : k - cur.length with
        | zero =>
          rw [hj] at hc
          simp only [List.getElem?_cons_zero, Option.some.injEq] at hc
          subst hc
          rw [hf hf']
          rfl
        | succ j => rw [hj] at hc; simp at hc
    · simp only [List.flatMap_append, List.flatMap_cons, List.flatMap_nil, List.append_nil]
      exact g.shown.append_right _

/-- A known identifier whose item is a function. -/
theorem step_old {seq : List Item} {S : State} {cur : List (Item × List Artist)} (g : Good seq S cur) {it : Item}
    (hk : it.kind ≠ .other) (hid : it.id ∈ S.ids) (hfun : ∀ x, IsLast seq x → x.id = it.id → x.kind = .function) :
    ∃ S' cur', step S it = .ok S' ∧ Good (seq ++ [it]) S' cur' := by
  obtain ⟨k, hidx⟩ : ∃ k, S.ids.idxOf? it.id = some k := by
    cases h : S.ids.idxOf? it.id with
    | none => exact absurd hid (List.idxOf?_eq_none_iff.1 h)
    | some k => exact ⟨k, rfl⟩
  have hget : S.ids[k]? = some it.id := by
    obtain ⟨hlt, he, -⟩ := List.idxOf?_eq_some_iff.1 hidx
    rw [List.getElem?_eq_getElem hlt, he]
  rw [g.ids, List.getElem?_map] at hget
  obtain ⟨c, hc, hcid⟩ := Option.map_eq_some_iff.1 hget
  have hmem : c ∈ cur := List.mem_of_getElem? hc
  have hlast : IsLast seq c.1 := (g.last c.1).1 (List.mem_map_of_mem hmem)
  have hcf := hfun c.1 hlast hcid
  have hitem := g.items k c hc hcf
  obtain ⟨a, ha⟩ : ∃ a, c.2 = [a] := by
    have hp := g.parts c hmem
    unfold Item.parts at hp
    rw [hcf] at hp
    have := congrArg List.length hp
    simp only [List.length_map, List.length_cons, List.length_nil] at this
    exact List.length_eq_one_iff.1 this
  obtain ⟨L, R, hcur, hL⟩ : ∃ L R, cur = L ++ c :: R ∧ L.length = k := by
    obtain ⟨hlt, he⟩ := List.getElem?_eq_some_iff.1 hc
    refine ⟨cur.take k, cur.drop (k + 1), ?_, by simp; omega⟩
    rw [← he, List.getElem_cons_drop, List.take_append_drop]
  have hsh : S.shown.Perm (a :: (L.flatMap Prod.snd ++ R.flatMap Prod.snd)) := by
    refine g.shown.trans ?_
    rw [hcur, List.flatMap_append, List.flatMap_cons, ha]
    exact List.perm_middle
  have ham : a ∈ S.shown := hsh.mem_iff.2 (by simp)
  have her : (S.shown.erase a).Perm (L.flatMap Prod.snd ++ R.flatMap Prod.snd) := by
    have := hsh.erase a
    rwa [List.erase_cons_head] at this
  obtain ⟨d, hd, hf⟩ := drawItem_ok hk { S with shown := S.shown.erase a }
  have hids : ∀ x ∈ L ++ R, x.1.id ≠ it.id := by
    intro x hx e
    have hn := g.nodup
    rw [g.ids, hcur, List.map_append, List.map_cons, List.nodup_middle, List.nodup_cons, ← List.map_append] at hn
    exact hn.1 (by rw [hcid, ← e]; exact List.mem_map_of_mem (f := fun c : Item × List Artist => c.1.id) hx)
  have hset : cur.set k (it, number S.next it it.parts) = L ++ (it, number S.next it it.parts) :: R := by
    rw [hcur, ← hL, List.set_append_right _ _ (le_refl _)]
    simp
  refine ⟨{ next := S.next + it.parts.length, shown := S.shown.erase a ++ number S.next it it.parts, ids := S.ids,
            items := S.items.set k d }, cur.set k (it, number S.next it it.parts), ?_, ?_⟩
  · unfold step
    rw [hidx]
    simp only
    rw [hitem]
    simp only [bind, pure, Except.pure, removeAll, ha, List.foldlM_cons, List.foldlM_nil, remove, if_pos ham, Except.bind]
    rw [hd]
  · constructor
    · simp only
      rw [g.ids, hset, hcur]
      simp [hcid]
    · exact g.nodup
    · intro x hx
      rcases List.mem_append.1 hx with hx | hx
      · exact g.cover x hx
      · rw [List.mem_singleton.1 hx]
        exact hid
    · intro x
      rw [IsLast.append_single, ← g.last, hset, hcur]
      simp only [List.map_append, List.map_cons, List.mem_append, List.mem_cons]
      constructor
      · rintro (h | h | h)
        · obtain ⟨y, hy, rfl⟩ := List.mem_map.1 h
          exact Or.inr ⟨Or.inl h, hids y (by simp [hy])⟩
        · exact Or.inl h
        · obtain ⟨y, hy, rfl⟩ := List.mem_map.1 h
          exact Or.inr ⟨Or.inr (Or.inr h), hids y (by simp [hy])⟩
      · rintro (rfl | ⟨h | rfl | h, hne⟩)
        · exact Or.inr (Or.inl rfl)
        · exact Or.inl h
        · exact absurd hcid hne
        · exact Or.inr (Or.inr h)
    · intro e he
      rw [hset] at he
      rcases List.mem_append.1 he with he | he
      · exact g.parts e (by rw [hcur]; exact List.mem_append_left _ he)
      · rcases List.mem_cons.1 he with rfl | he
        · exact number_content _ _ _
        · exact g.parts e (by rw [hcur]; simp [he])
    · simp [g.len]
    · intro j e he hfe
      simp only
      have hlt : k < S.items.length := by
        rw [g.len, hcur, ← hL]
        simp
      by_cases hjk : j = k
      · subst hjk
        rw [List.getElem?_set_self (by rw [← g.len]; exact hlt)] at he
        rw [List.getElem?_set_self hlt]
        simp only [Option.some.injEq] at he ⊢
        subst he
        exact hf hfe
      · rw [List.getElem?_set_ne (Ne.symm hjk)] at he ⊢
        exact g.items j e he hfe
    · simp only
      rw [hset, List.flatMap_append, List.flatMap_cons]
      refine (her.append_right _).trans ?_
      rw [List.append_assoc]
      exact (List.perm_append_comm.append_left _)

theorem draw_good : ∀ (rest : List Item) {seq : List Item} {S : State} {cur : List (Item × List Artist)}, Good seq S cur →
    (∀ it ∈ seq ++ rest, it.kind ≠ .other) → (∀ it, Replaced (seq ++ rest) it → it.kind = .function) →
    ∃ S' cur', rest.foldlM step S = .ok S' ∧ Good (seq ++ rest) S' cur'
  | [], seq, S, cur, g, _, _ => ⟨S, cur, rfl, by rw [List.append_nil]; exact g⟩
  | it :: rest, seq, S, cur, g, hk, hr => by
    have e : seq ++ it :: rest = (seq ++ [it]) ++ rest := by simp
    have hki := hk it (by simp)
    obtain ⟨S', cur', hs, g'⟩ : ∃ S' cur', step S it = .ok S' ∧ Good (seq ++ [it]) S' cur' := by
      by_cases hid : it.id ∈ S.ids
      · refine step_old g hki hid ?_
        rintro x ⟨l, r, rfl, -⟩ hx
        exact hr x ⟨l, r ++ it :: rest, by simp, it, by simp, hx.symm⟩
      · exact step_new g hki hid
    rw [e] at hk hr ⊢
    obtain ⟨S2, cur2, h2, g2⟩ := draw_good rest g' hk hr
    refine ⟨S2, cur2, ?_, g2⟩
    rw [List.foldlM_cons, hs]
    exact h2

theorem Good.shows {seq : List Item} {S : State} {cur : List (Item × List Artist)} (g : Good seq S cur) : ShowsLast seq S := by
  have hp : (S.shown.map fun a => (a.item, a.part)).Perm (cur.flatMap fun c => c.1.parts.map fun p => (c.1, p)) := by
    refine (g.shown.map _).trans ?_
    rw [List.map_flatMap]
    apply List.Perm.of_eq
    exact List.flatMap_congr fun c hc => g.parts c hc
  constructor
  · rw [hp.nodup_iff, List.nodup_flatMap]
    refine ⟨fun c _ => (parts_nodup c.1).map fun p q h => by simpa using h, ?_⟩
    have hn := g.nodup
    rw [g.ids, List.nodup_iff_pairwise_ne, List.pairwise_map] at hn
    refine hn.imp ?_
    intro c c' hne
    simp only [Function.onFun]
    intro x hx hx'
    obtain ⟨p, -, rfl⟩ := List.mem_map.1 hx
    obtain ⟨p', -, e⟩ := List.mem_map.1 hx'
    simp only [Prod.mk.injEq] at e
    exact hne (by rw [e.1])
  · intro it p
    rw [hp.mem_iff, ← g.last]
    simp only [List.mem_flatMap, List.mem_map, Prod.mk.injEq]
    constructor
    · rintro ⟨c, hc, q, hq, rfl, rfl⟩
      exact ⟨⟨c, hc, rfl⟩, hq⟩
    · rintro ⟨⟨c, hc, rfl⟩, hq⟩
      exact ⟨c, hc, p, hq, rfl, rfl⟩

/-- **C155**, what holds: if only functions are replaced, the sequence is drawn without an exception and the plot shows the last
item of every identifier and nothing else. Missing: points and axes that are replaced (refuted below). -/
theorem C155_partial (seq : List Item) (hk : ∀ it ∈ seq, it.kind ≠ .other)
    (hr : ∀ it, Replaced seq it → it.kind = .function) : ∃ S, drawSequence seq = .ok S ∧ ShowsLast seq S := by
  have g0 : Good [] ⟨0, [], [], []⟩ [] := by
    refine ⟨rfl, by simp, by simp, ?_, by simp, rfl, by simp, by simp⟩
    intro x
    simp only [List.map_nil, List.not_mem_nil, false_iff]
    rintro ⟨l, r, h, -⟩
    simp at h
  obtain ⟨S, cur, h, g⟩ := draw_good seq g0 hk hr
  exact ⟨S, h, g.shows⟩

-- an axis, a point, a function that is replaced twice
example : let seq : List Item := [⟨-1, .axis 2, 0⟩, ⟨0, .function, 1⟩, ⟨1, .point, 2⟩, ⟨0, .function, 3⟩, ⟨0, .function, 4⟩]
    (∀ it ∈ seq, it.kind ≠ .other) ∧ (∀ it, Replaced seq it → it.kind = .function) ∧ Replaced seq ⟨0, .function, 1⟩ ∧
    (drawSequence seq).map (fun S => S.shown.map fun a => (a.item.look, a.part)) =
      .ok [(0, .axisLine), (0, .tickLine 0), (0, .tickLabel 0), (0, .tickLine 1), (0, .tickLabel 1), (2, .dot), (4, .curve)] := by
  intro seq
  refine ⟨by decide, ?_, ⟨[⟨-1, .axis 2, 0⟩], _, rfl, ⟨0, .function, 3⟩, by simp, rfl⟩, by decide +kernel⟩
  rintro it ⟨l, r, h, y, hy, e⟩
  have hp : seq.Pairwise fun a b => b.id = a.id → a.kind = .function := by decide
  rw [h, List.pairwise_append] at hp
  exact (List.pairwise_cons.1 hp.2.1).1 y hy e

/-- **C155** fails for points: every sequence that starts with a point and any item with the identifier of that point raises
TypeError, because the loop over the old objects expects a list. -/
theorem C155_refuted_point (p q : Item) (hp : p.kind = .point) (hid : q.id = p.id) (rest : List Item) :
    drawSequence (p :: q :: rest) = .error .type := by
  unfold drawSequence
  have h1 : step ⟨0, [], [], []⟩ p = .ok ⟨1, [⟨0, p, .dot⟩], [p.id], [.single ⟨0, p, .dot⟩]⟩ := by
    unfold step drawItem
    simp only [hp]
    rfl
  have h2 : step ⟨1, [⟨0, p, .dot⟩], [p.id], [.single ⟨0, p, .dot⟩]⟩ q = .error .type := by
    unfold step
    have : [p.id].idxOf? q.id = some 0 := by rw [hid]; simp [List.idxOf?, List.findIdx?_cons]
    simp only [this]
    rfl
  simp only [List.foldlM_cons, bind, h1, Except.bind, h2]

/-- **C155** fails for axes: when an axis with the ten default ticks is replaced, nine of its tick lines stay on the plot; an
axis without ticks cannot be replaced, its line is removed twice. -/
theorem C155_refuted_axis :
    ((drawSequence [⟨0, .axis 10, 0⟩, ⟨0, .function, 1⟩]).map fun S => S.shown.map fun a => (a.item.look, a.part)) =
      .ok ((List.range 9).map (fun k => (0, .tickLine k)) ++ [(1, .curve)]) ∧
    drawSequence [⟨0, .axis 0, 0⟩, ⟨0, .function, 1⟩] = .error .notImplemented := by
  constructor <;> decide +kernel

end Viz
end Verif
