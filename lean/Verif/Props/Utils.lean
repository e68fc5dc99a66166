import Verif.Model.Utils
import Mathlib.Tactic.Linarith
import Mathlib.Tactic.FieldSimp
import Mathlib.Tactic.Ring
import Mathlib.Data.Rat.Floor
import Mathlib.Data.List.Induction

/-!
# Properties C65, C66, C67: splitting of times and the stream reader
-/

set_option linter.unusedSectionVars false
set_option autoImplicit false

namespace Verif

/-! ### C65 -/

section Hms
variable {K : Type*} [Field K] [LinearOrder K] [IsStrictOrderedRing K] [FloorRing K]

theorem floorDiv_bounds (a b : K) (hb : 0 < b) : 0 ≤ a - floorDiv a b * b ∧ a - floorDiv a b * b < b := by
  have h1 : floorDiv a b ≤ a / b := Int.floor_le (a / b)
  have h2 : a / b < floorDiv a b + 1 := Int.lt_floor_add_one (a / b)
  rw [le_div_iff₀ hb] at h1
  rw [div_lt_iff₀ hb] at h2
  constructor <;> linarith

/-- **C65.** Hours, minutes and seconds add up to the time exactly; hours and minutes are whole numbers, minutes and
seconds are in `[0, 60)`. -/
theorem C65_time_to_hms (t : K) (h m s : K) (e : timeToHms t = (h, m, s)) :
    h * 3600 + m * 60 + s = t ∧ (∃ n : ℤ, h = n) ∧ (∃ n : ℤ, m = n) ∧ (0 ≤ m ∧ m < 60) ∧ 0 ≤ s ∧ s < 60 := by
  simp only [timeToHms, Prod.mk.injEq] at e
  obtain ⟨e1, e2, e3⟩ := e
  have b1 := floorDiv_bounds t 3600 (by norm_num)
  rw [e1] at b1 e2 e3
  have b2 := floorDiv_bounds (t - h * 3600) 60 (by norm_num)
  rw [e2] at b2 e3
  obtain ⟨n, hn⟩ : ∃ n : ℤ, m = n := ⟨_, e2.symm⟩
  refine ⟨by rw [← e3]; ring, ⟨_, e1.symm⟩, ⟨n, hn⟩, ⟨?_, ?_⟩, by linarith [b2.1], by linarith [b2.2]⟩
  · have : (-1 : K) < (n : K) := by rw [← hn]; nlinarith [b2.2, b1.1]
    have h' : (-1 : ℤ) < n := by exact_mod_cast this
    rw [hn]; exact_mod_cast (by omega : (0 : ℤ) ≤ n)
  · nlinarith [b2.1, b1.2]

/-- A time of one hour, two minutes and three and a half seconds, and a negative time. -/
example : timeToHms (3723 + 1/2 : ℚ) = (1, 2, 7/2) ∧ timeToHms (-1 : ℚ) = (-1, 59, 59) := by decide +kernel

end Hms

namespace Reader
variable {L : Type*}

/-! ### Specification -/

/-- The non empty lines the stream delivered, in order. -/
def produced (as : List (Act L)) : List L :=
  as.filterMap fun a => match a with
    | .readline l => l
    | _ => none

/-- The lines returned by the calls. -/
def delivered (rs : List (Ret L)) : List L := rs.filterMap Ret.val

/-- The lines returned by `read_last_and_clear`. -/
def newest (rs : List (Ret L)) : List L :=
  rs.filterMap fun r => match r.call with
    | .readLast _ => r.val
    | .read => none

/-- The stamps tell the order in which the stream delivered the lines. -/
def Stamped (stamp : L → ℕ) (as : List (Act L)) : Prop := (produced as).Pairwise fun a b => stamp a < stamp b

/-- The reader thread puts no line while a call to `read_last_and_clear` that has seen the queue empty is about to put
its line back. -/
def Quiet : St L → List (Act L) → Prop
  | _, [] => True
  | s, a :: as => (a = .put → ∀ v, s.pc ≠ .putBack v) ∧ ∀ s' r, act s a = some (s', r) → Quiet s' as

/-! ### Executions -/

theorem exec_append (as bs : List (Act L)) : ∀ s : St L, exec s (as ++ bs) =
    match exec s as with
    | none => none
    | some (s', rs) => match exec s' bs with
      | none => none
      | some (s'', rs') => some (s'', rs ++ rs') := by
  induction as with
  | nil => intro s; simp only [List.nil_append, exec]; cases exec s bs with
    | none => rfl
    | some p => rfl
  | cons a as ih =>
    intro s
    simp only [List.cons_append, exec]
    cases act s a with
    | none => rfl
    | some p =>
      obtain ⟨s', r⟩ := p
      simp only [ih s']
      cases exec s' as with
      | none => rfl
      | some p' =>
        obtain ⟨s'', rs⟩ := p'
        simp only
        cases exec s'' bs with
        | none => rfl
        | some p'' => simp [List.append_assoc]

/-- Induction over executions, last action first. -/
theorem exec_inv (s0 : St L) (I : List (Act L) → St L → List (Ret L) → Prop) (h0 : I [] s0 [])
    (hstep : ∀ as s rs a s' r, exec s0 as = some (s, rs) → I as s rs → act s a = some (s', r) →
      I (as ++ [a]) s' (rs ++ r.toList)) :
    ∀ as s rs, exec s0 as = some (s, rs) → I as s rs := by
  intro as
  induction as using List.reverseRecOn with
  | nil => intro s rs h; simp only [exec, Option.some.injEq, Prod.mk.injEq] at h; obtain ⟨rfl, rfl⟩ := h; exact h0
  | append_singleton as a ih =>
    intro s rs h
    rw [exec_append] at h
    cases he : exec s0 as with
    | none => rw [he] at h; simp at h
    | some p =>
      obtain ⟨s1, rs1⟩ := p
      rw [he] at h
      simp only [exec] at h
      cases ha : act s1 a with
      | none => rw [ha] at h; simp at h
      | some p' =>
        obtain ⟨s2, r⟩ := p'
        rw [ha] at h
        simp only [List.append_nil, Option.some.injEq, Prod.mk.injEq] at h
        obtain ⟨rfl, rfl⟩ := h
        exact hstep as s1 rs1 a s2 r he (ih s1 rs1 he) ha

theorem quiet_append (as bs : List (Act L)) : ∀ s : St L, Quiet s (as ++ bs) → Quiet s as ∧
    ∀ s' rs, exec s as = some (s', rs) → Quiet s' bs := by
  induction as with
  | nil => intro s h; refine ⟨trivial, ?_⟩; intro s' rs he; simp only [exec, Option.some.injEq, Prod.mk.injEq] at he; rw [← he.1]; exact h
  | cons a as ih =>
    intro s h
    simp only [List.cons_append, Quiet] at h ⊢
    refine ⟨⟨h.1, fun s' r ha => (ih s' (h.2 s' r ha)).1⟩, ?_⟩
    intro s' rs he
    simp only [exec] at he
    cases ha : act s a with
    | none => rw [ha] at he; simp at he
    | some p =>
      obtain ⟨s1, r⟩ := p
      rw [ha] at he
      simp only at he
      cases hb : exec s1 as with
      | none => rw [hb] at he; simp at he
      | some p' =>
        obtain ⟨s2, rs2⟩ := p'
        rw [hb] at he
        simp only [Option.some.injEq, Prod.mk.injEq] at he
        rw [← he.1]
        exact (ih s1 (h.2 s1 r ha)).2 s2 rs2 hb

theorem produced_snoc (as : List (Act L)) (a : Act L) : produced (as ++ [a]) = produced as ++ produced [a] := by
  simp [produced]

/-! ### C66 -/

/-- The line the calling thread has in hand. -/
def Pc.val : Pc L → List L
  | .test _ v => v.toList
  | .get _ v => v.toList
  | .putBack v => [v]
  | _ => []

/-- **C66.** In every execution in which only `read` is called, the lines returned, followed by the lines queued and by
the line the reader thread holds, are the lines of the stream in order; a pending call never blocks: its single
operation is possible and returns the oldest line queued, or the empty line if there is none. -/
theorem C66_read_in_order (as : List (Act L)) (hr : ∀ c, Act.call c ∈ as → c = .read) (s : St L) (rs : List (Ret L))
    (h : exec init as = some (s, rs)) :
    delivered rs ++ s.q ++ s.held.toList = produced as ∧
    (s.pc ≠ .idle → act s .step = some (⟨s.q.tail, s.held, .idle⟩, some ⟨.read, s.q.head?⟩)) := by
  have key := exec_inv init (fun as s rs => (∀ c, Act.call c ∈ as → c = .read) →
      delivered rs ++ s.q ++ s.held.toList = produced as ∧ (s.pc = .idle ∨ s.pc = .read))
    (fun _ => ⟨rfl, .inl rfl⟩) ?_ as s rs h hr
  · refine ⟨key.1, fun hp => ?_⟩
    have hpc : s.pc = .read := by rcases key.2 with h | h; exact absurd h hp; exact h
    obtain ⟨q, hd, pc⟩ := s
    simp only at hpc; subst hpc
    cases q <;> rfl
  · clear h hr as s rs
    intro as s rs a s' r _ ih ha hr
    have ih := ih fun c hc => hr c (by simp [hc])
    obtain ⟨i1, i2⟩ := ih
    obtain ⟨q, hd, pc⟩ := s
    rw [produced_snoc, ← i1]
    cases a with
    | readline l =>
      cases hd with
      | some x => simp [act] at ha
      | none =>
        simp only [act, Option.some.injEq, Prod.mk.injEq] at ha
        obtain ⟨rfl, rfl⟩ := ha
        cases l <;> simp [produced, i2]
    | put =>
      cases hd with
      | none => simp [act] at ha
      | some x =>
        simp only [act, Option.some.injEq, Prod.mk.injEq] at ha
        obtain ⟨rfl, rfl⟩ := ha
        simp [produced, i2]
    | call c =>
      have hc := hr c (by simp)
      subst hc
      rcases i2 with i2 | i2 <;> simp only at i2 <;> subst i2
      · simp only [act, Option.some.injEq, Prod.mk.injEq] at ha
        obtain ⟨rfl, rfl⟩ := ha
        simp [produced]
      · simp [act] at ha
    | step =>
      rcases i2 with i2 | i2 <;> simp only at i2 <;> subst i2
      · simp [act] at ha
      · cases q with
        | nil =>
          simp only [act, Option.some.injEq, Prod.mk.injEq] at ha
          obtain ⟨rfl, rfl⟩ := ha
          simp [produced, delivered]
        | cons x q =>
          simp only [act, Option.some.injEq, Prod.mk.injEq] at ha
          obtain ⟨rfl, rfl⟩ := ha
          simp [produced, delivered]

/-- Two lines, an empty read in between. -/
example : exec (L := ℕ) init [.readline (some 7), .call .read, .step, .put, .readline none, .readline (some 8),
    .call .read, .put, .step, .call .read] =
    some (⟨[8], none, .read⟩, [⟨.read, none⟩, ⟨.read, some 7⟩]) := by decide

/-- No call ever blocks, whatever the mix of calls: a thread that has been through `empty()` finds the line it saw. -/
theorem C66_never_blocks (as : List (Act L)) (s : St L) (rs : List (Ret L)) (h : exec init as = some (s, rs))
    (hp : s.pc ≠ .idle) : ∃ p, act s .step = some p := by
  have key := exec_inv init (fun _ s _ => ∀ k v, s.pc = .get k v → s.q ≠ []) (by intro k v h; simp [init] at h) ?_ as s rs h
  · obtain ⟨q, hd, pc⟩ := s
    cases pc with
    | idle => exact absurd rfl hp
    | read => cases q <;> exact ⟨_, rfl⟩
    | test k v => cases q <;> exact ⟨_, rfl⟩
    | get k v => cases q with
      | nil => exact absurd rfl (key k v rfl)
      | cons x q => exact ⟨_, rfl⟩
    | putBack v => exact ⟨_, rfl⟩
  · clear hp h as s rs
    intro as s rs a s' r _ ih ha
    obtain ⟨q, hd, pc⟩ := s
    cases a with
    | readline l =>
      cases hd with
      | some x => simp [act] at ha
      | none => simp only [act, Option.some.injEq, Prod.mk.injEq] at ha; rw [← ha.1]; exact ih
    | put =>
      cases hd with
      | none => simp [act] at ha
      | some x => simp only [act, Option.some.injEq, Prod.mk.injEq] at ha; rw [← ha.1]; simp
    | call c =>
      cases pc <;> cases c <;> simp only [act, Option.some.injEq, Prod.mk.injEq, reduceCtorEq] at ha <;>
        (rw [← ha.1]; simp)
    | step =>
      cases pc with
      | idle => simp [act] at ha
      | read => cases q <;> (simp only [act, Option.some.injEq, Prod.mk.injEq] at ha; rw [← ha.1]; simp)
      | test k v =>
        cases q with
        | nil => cases v <;> cases k <;> (simp [act, leave] at ha; rw [← ha.1]; simp)
        | cons x q => simp only [act, Option.some.injEq, Prod.mk.injEq] at ha; rw [← ha.1]; simp
      | get k v => cases q with
        | nil => simp [act] at ha
        | cons x q => simp only [act, Option.some.injEq, Prod.mk.injEq] at ha; rw [← ha.1]; simp
      | putBack v => simp only [act, Option.some.injEq, Prod.mk.injEq] at ha; rw [← ha.1]; simp

/-! ### C67 -/

/-- In a quiet execution without history the lines in hand, queued and held are in stream order. -/
theorem quiet_sublist (as : List (Act L)) (hq : Quiet init as) (s : St L) (rs : List (Ret L))
    (h : exec init as = some (s, rs)) :
    (s.pc.val ++ s.q ++ s.held.toList).Sublist (produced as) ∧ ∀ v, s.pc = .putBack v → s.q = [] := by
  revert hq
  refine exec_inv init (fun as s _ => Quiet init as → (s.pc.val ++ s.q ++ s.held.toList).Sublist (produced as) ∧
      ∀ v, s.pc = .putBack v → s.q = []) ?_ ?_ as s rs h
  · intro _; exact ⟨List.nil_sublist _, fun v hv => rfl⟩
  · clear h as s rs
    intro as s rs a s' r he ih ha hq
    obtain ⟨hq1, hq2⟩ := quiet_append as [a] init hq
    have hq2 := (hq2 s rs he).1
    obtain ⟨i1, i2⟩ := ih hq1
    obtain ⟨q, hd, pc⟩ := s
    rw [produced_snoc]
    cases a with
    | readline l =>
      cases hd with
      | some x => simp [act] at ha
      | none =>
        simp only [act, Option.some.injEq, Prod.mk.injEq] at ha
        obtain ⟨rfl, rfl⟩ := ha
        refine ⟨?_, i2⟩
        simp only [Option.toList_none, List.append_nil] at i1
        refine i1.append ?_
        cases l <;> simp [produced]
    | put =>
      cases hd with
      | none => simp [act] at ha
      | some x =>
        simp only [act, Option.some.injEq, Prod.mk.injEq] at ha
        obtain ⟨rfl, rfl⟩ := ha
        refine ⟨?_, fun v hv => absurd hv (hq2 rfl v)⟩
        simpa [produced] using i1
    | call c =>
      have hp : produced [Act.call c] = ([] : List L) := rfl
      rw [hp, List.append_nil]
      cases pc <;> cases c <;> simp only [act, Option.some.injEq, Prod.mk.injEq, reduceCtorEq] at ha <;>
        (rw [← ha.1]; exact ⟨by simpa [Pc.val] using i1, by simp⟩)
    | step =>
      have hp : produced [Act.step] = ([] : List L) := rfl
      rw [hp, List.append_nil]
      cases pc with
      | idle => simp [act] at ha
      | read =>
        cases q with
        | nil => simp only [act, Option.some.injEq, Prod.mk.injEq] at ha; rw [← ha.1]; exact ⟨by simpa [Pc.val] using i1, by simp⟩
        | cons x q =>
          simp only [act, Option.some.injEq, Prod.mk.injEq] at ha
          rw [← ha.1]
          exact ⟨(List.sublist_cons_self x _).trans (by simpa [Pc.val] using i1), by simp⟩
      | test k v =>
        cases q with
        | nil =>
          cases v with
          | none => simp [act, leave] at ha; rw [← ha.1]; exact ⟨by simpa [Pc.val] using i1, by simp⟩
          | some w =>
            cases k with
            | false =>
              simp [act, leave] at ha; rw [← ha.1]
              exact ⟨(List.sublist_cons_self w _).trans (by simpa [Pc.val] using i1), by simp⟩
            | true => simp [act, leave] at ha; rw [← ha.1]; exact ⟨by simpa [Pc.val] using i1, by simp⟩
        | cons x q =>
          simp only [act, Option.some.injEq, Prod.mk.injEq] at ha; rw [← ha.1]
          exact ⟨by simpa [Pc.val] using i1, by simp⟩
      | get k v => cases q with
        | nil => simp [act] at ha
        | cons x q =>
          simp only [act, Option.some.injEq, Prod.mk.injEq] at ha; rw [← ha.1]
          refine ⟨?_, by simp⟩
          cases v with
          | none => simpa [Pc.val] using i1
          | some w => exact (List.sublist_cons_self w _).trans (by simpa [Pc.val] using i1)
      | putBack v =>
        simp only [act, Option.some.injEq, Prod.mk.injEq] at ha; rw [← ha.1]
        have := i2 v rfl
        simp only at this; subst this
        exact ⟨by simpa [Pc.val] using i1, by simp⟩

/-- What a running `read_last_and_clear` guarantees about a line `l` that was available when it was called. -/
def Covers (stamp : L → ℕ) (l : L) (s : St L) : Prop :=
  match s.pc with
  | .test _ v => (v.toList ++ s.q).Pairwise (fun a b => stamp a < stamp b) ∧ (l ∈ s.q ∨ ∃ w, v = some w ∧ stamp l ≤ stamp w)
  | .get _ v => (v.toList ++ s.q).Pairwise (fun a b => stamp a < stamp b) ∧ (l ∈ s.q ∨ ∃ w, v = some w ∧ stamp l ≤ stamp w)
  | .putBack w => stamp l ≤ stamp w
  | _ => False

/-- Every queued or held line, and every line in hand, is a line of the stream. -/
theorem mem_produced (as : List (Act L)) (s : St L) (rs : List (Ret L)) (h : exec init as = some (s, rs)) :
    ∀ x ∈ s.pc.val ++ s.q ++ s.held.toList, x ∈ produced as := by
  refine exec_inv init (fun as s _ => ∀ x ∈ s.pc.val ++ s.q ++ s.held.toList, x ∈ produced as) ?_ ?_ as s rs h
  · intro x hx; simp [init, Pc.val] at hx
  · clear h as s rs
    intro as s rs a s' r he ih ha
    obtain ⟨q, hd, pc⟩ := s
    rw [produced_snoc]
    simp only [List.mem_append] at ih ⊢
    cases a with
    | readline l =>
      cases hd with
      | some x => simp [act] at ha
      | none =>
        simp only [act, Option.some.injEq, Prod.mk.injEq] at ha
        obtain ⟨rfl, rfl⟩ := ha
        rintro x ((hx | hx) | hx)
        · exact .inl (ih x (.inl (.inl hx)))
        · exact .inl (ih x (.inl (.inr hx)))
        · right; cases l <;> simpa [produced] using hx
    | put =>
      cases hd with
      | none => simp [act] at ha
      | some y =>
        simp only [act, Option.some.injEq, Prod.mk.injEq] at ha
        obtain ⟨rfl, rfl⟩ := ha
        intro x hx
        left
        apply ih
        simpa [or_assoc] using hx
    | call c =>
      intro x hx; left; apply ih
      cases pc <;> cases c <;> simp only [act, Option.some.injEq, Prod.mk.injEq, reduceCtorEq] at ha <;>
        (rw [← ha.1] at hx; simpa [Pc.val] using hx)
    | step =>
      intro x hx; left; apply ih
      cases pc with
      | idle => simp [act] at ha
      | read =>
        cases q with
        | nil => simp only [act, Option.some.injEq, Prod.mk.injEq] at ha; rw [← ha.1] at hx; simpa [Pc.val] using hx
        | cons y q => simp only [act, Option.some.injEq, Prod.mk.injEq] at ha; rw [← ha.1] at hx; simp [Pc.val] at hx ⊢; tauto
      | test k v =>
        cases q with
        | nil => cases v <;> cases k <;> (simp [act, leave] at ha; rw [← ha.1] at hx; simp [Pc.val] at hx ⊢; tauto)
        | cons y q => simp only [act, Option.some.injEq, Prod.mk.injEq] at ha; rw [← ha.1] at hx; simpa [Pc.val] using hx
      | get k v => cases q with
        | nil => simp [act] at ha
        | cons y q => simp only [act, Option.some.injEq, Prod.mk.injEq] at ha; rw [← ha.1] at hx; simp [Pc.val] at hx ⊢; tauto
      | putBack v => simp only [act, Option.some.injEq, Prod.mk.injEq] at ha; rw [← ha.1] at hx; simp [Pc.val] at hx ⊢; tauto

/-- A running call keeps covering the line until it returns a line at least as recent. -/
theorem covers_run (stamp : L → ℕ) (l : L) : ∀ (as : List (Act L)) (past : List (Act L)) (s : St L) (rs0 : List (Ret L))
    (s' : St L) (r : Ret L) (rs : List (Ret L)), exec init past = some (s, rs0) → Stamped stamp (past ++ as) →
    (∀ h, s.held = some h → ∀ x ∈ s.pc.val ++ s.q, stamp x < stamp h) → Covers stamp l s →
    exec s as = some (s', r :: rs) → ∃ v, r.val = some v ∧ stamp l ≤ stamp v := by
  intro as
  induction as with
  | nil => intro past s rs0 s' r rs _ _ _ _ h; simp [exec] at h
  | cons a as ih =>
    intro past s rs0 s' r rs hp hst hh hc he
    have hmem := mem_produced past s rs0 hp
    simp only [exec] at he
    cases ha : act s a with
    | none => rw [ha] at he; simp at he
    | some p =>
      obtain ⟨s1, r1⟩ := p
      rw [ha] at he
      simp only at he
      cases hb : exec s1 as with
      | none => rw [hb] at he; simp at he
      | some p' =>
        obtain ⟨s2, rs2⟩ := p'
        rw [hb] at he
        simp only [Option.some.injEq, Prod.mk.injEq] at he
        obtain ⟨rfl, he2⟩ := he
        have hp' : exec init (past ++ [a]) = some (s1, rs0 ++ r1.toList) := by
          rw [exec_append, hp]; simp only [exec, ha]; simp
        have hst' : Stamped stamp (past ++ [a] ++ as) := by simpa using hst
        have hnew : ∀ y, a = .readline (some y) → ∀ x ∈ produced past, stamp x < stamp y := by
          intro y hy x hx
          have : (produced past ++ produced (a :: as)).Pairwise fun a b => stamp a < stamp b := by
            have := hst; unfold Stamped at this; rwa [produced, List.filterMap_append] at this
          exact (List.pairwise_append.1 this).2.2 x hx y (by rw [hy]; simp [produced])
        obtain ⟨q, hd, pc⟩ := s
        cases a with
        | readline y =>
          cases hd with
          | some x => simp [act] at ha
          | none =>
            simp only [act, Option.some.injEq, Prod.mk.injEq] at ha
            obtain ⟨rfl, rfl⟩ := ha
            simp only [Option.toList_none, List.nil_append] at he2
            subst he2
            refine ih _ _ _ _ _ _ hp' hst' ?_ hc hb
            intro h hh1 x hx
            simp only at hh1
            subst hh1
            exact hnew h rfl x (hmem x (by simp only [List.mem_append] at hx ⊢; exact .inl hx))
        | put =>
          cases hd with
          | none => simp [act] at ha
          | some y =>
            simp only [act, Option.some.injEq, Prod.mk.injEq] at ha
            obtain ⟨rfl, rfl⟩ := ha
            simp only [Option.toList_none, List.nil_append] at he2
            subst he2
            refine ih _ _ _ _ _ _ hp' hst' (by intro h hh1; simp at hh1) ?_ hb
            have hy := hh y rfl
            have hpw : ∀ v : Option L, (∀ x ∈ v.toList ++ q, stamp x < stamp y) →
                (v.toList ++ q).Pairwise (fun a b => stamp a < stamp b) →
                (v.toList ++ (q ++ [y])).Pairwise fun a b => stamp a < stamp b := by
              intro v h1 h2
              rw [← List.append_assoc, List.pairwise_append]
              exact ⟨h2, List.pairwise_singleton _ _, fun x hx z hz => by rw [List.mem_singleton.1 hz]; exact h1 x hx⟩
            cases pc with
            | idle => exact hc
            | read => exact hc
            | test k v => exact ⟨hpw v hy hc.1, hc.2.imp (fun h => by simp [h]) id⟩
            | get k v => exact ⟨hpw v hy hc.1, hc.2.imp (fun h => by simp [h]) id⟩
            | putBack v => exact hc
        | call c =>
          cases pc with
          | idle => exact absurd hc id
          | _ => simp [act] at ha
        | step =>
          cases pc with
          | idle => exact absurd hc id
          | read => exact absurd hc id
          | test k v =>
            obtain ⟨c1, c2⟩ := hc
            cases q with
            | nil =>
              rcases c2 with c2 | ⟨w, rfl, hw⟩
              · simp at c2
              · cases k with
                | false =>
                  simp [act, leave] at ha
                  obtain ⟨rfl, rfl⟩ := ha
                  simp only [Option.toList_some, List.cons_append, List.nil_append, List.cons.injEq] at he2
                  rw [← he2.1]; exact ⟨w, rfl, hw⟩
                | true =>
                  simp [act, leave] at ha
                  obtain ⟨rfl, rfl⟩ := ha
                  simp only [Option.toList_none, List.nil_append] at he2
                  subst he2
                  refine ih _ _ _ _ _ _ hp' hst' ?_ hw hb
                  intro h hh1 x hx
                  exact hh h hh1 x (by simpa [Pc.val] using hx)
            | cons x q =>
              simp only [act, Option.some.injEq, Prod.mk.injEq] at ha
              obtain ⟨rfl, rfl⟩ := ha
              simp only [Option.toList_none, List.nil_append] at he2
              subst he2
              exact ih _ _ _ _ _ _ hp' hst' hh ⟨c1, c2⟩ hb
          | get k v =>
            obtain ⟨c1, c2⟩ := hc
            cases q with
            | nil => simp [act] at ha
            | cons x q =>
              simp only [act, Option.some.injEq, Prod.mk.injEq] at ha
              obtain ⟨rfl, rfl⟩ := ha
              simp only [Option.toList_none, List.nil_append] at he2
              subst he2
              have c1' : (x :: q).Pairwise fun a b => stamp a < stamp b := (List.pairwise_append.1 c1).2.1
              refine ih _ _ _ _ _ _ hp' hst' ?_ ⟨c1', ?_⟩ hb
              · intro h hh1 z hz
                exact hh h hh1 z (by simp [Pc.val] at hz ⊢; tauto)
              · rcases c2 with c2 | ⟨w, rfl, hw⟩
                · rcases List.mem_cons.1 c2 with rfl | c2
                  · exact .inr ⟨l, rfl, le_refl _⟩
                  · exact .inl c2
                · right
                  refine ⟨x, rfl, hw.trans (le_of_lt ?_)⟩
                  exact (List.pairwise_append.1 c1).2.2 w (by simp) x (by simp)
          | putBack w =>
            simp only [act, Option.some.injEq, Prod.mk.injEq] at ha
            obtain ⟨rfl, rfl⟩ := ha
            simp only [Option.toList_some, List.cons_append, List.nil_append, List.cons.injEq] at he2
            rw [← he2.1]; exact ⟨w, rfl, hc⟩

/-- The full statement of the first half of C67: whatever happened before, a call returns a line at least as recent as
every line available when it is called. -/
def ReturnsNewest (stamp : L → ℕ) (past : List (Act L)) : Prop :=
  ∀ (s : St L) (rs0 : List (Ret L)), exec init past = some (s, rs0) →
  ∀ (keep : Bool) (as : List (Act L)), Stamped stamp (past ++ .call (.readLast keep) :: as) →
  ∀ (s' : St L) (r : Ret L) (rs : List (Ret L)), exec s (.call (.readLast keep) :: as) = some (s', r :: rs) →
  ∀ l ∈ s.q, ∃ v, r.val = some v ∧ stamp l ≤ stamp v

/-- **C67, refuted.** `read_last_and_clear()` puts the line it returns back at the end of the queue, behind a line that
arrived in between: the next call returns the old line although a newer one was available when it was called. -/
theorem C67_refuted : ¬ ∀ past : List (Act ℕ), ReturnsNewest id past := by
  intro h
  obtain ⟨v, hv, hle⟩ := h [.readline (some 1), .put, .call (.readLast true), .step, .step, .step, .readline (some 2), .put, .step]
    ⟨[2, 1], none, .idle⟩ [⟨.readLast true, some 1⟩] (by decide) true [.step, .step, .step, .step, .step, .step]
    (by unfold Stamped; decide) ⟨[1], none, .idle⟩ ⟨.readLast true, some 1⟩ [] (by decide) 2 (by decide)
  simp at hv
  subst hv
  simp at hle

/-- **C67, partial, recency.** If, until the call, the reader thread never put a line while a call was about to put its
line back, then the call returns a line at least as recent as every line available when it is called, with and without
`keep_last` and whatever the reader thread does during the call. (Missing: the race of `C67_refuted`.) -/
theorem C67_partial (stamp : L → ℕ) (past : List (Act L)) (hq : Quiet init past) : ReturnsNewest stamp past := by
  intro s rs0 hp keep as hst s' r rs he l hl
  simp only [exec] at he
  cases ha : act s (.call (.readLast keep)) with
  | none => rw [ha] at he; simp at he
  | some p =>
    obtain ⟨s1, r1⟩ := p
    have hsub := (quiet_sublist past hq s rs0 hp).1
    have hpw : (produced past).Pairwise fun a b => stamp a < stamp b := by
      have := hst; unfold Stamped at this; rw [produced, List.filterMap_append] at this
      exact (List.pairwise_append.1 this).1
    have hs := hpw.sublist hsub
    obtain ⟨q, hd, pc⟩ := s
    cases pc with
    | idle =>
      simp only [act, Option.some.injEq, Prod.mk.injEq] at ha
      obtain ⟨rfl, rfl⟩ := ha
      cases hb : exec ⟨q, hd, .test keep none⟩ as with
      | none => rw [show act (⟨q, hd, .idle⟩ : St L) (.call (.readLast keep)) = some (⟨q, hd, .test keep none⟩, none) from rfl] at he; simp only [hb] at he; simp at he
      | some p' =>
        obtain ⟨s2, rs2⟩ := p'
        rw [show act (⟨q, hd, .idle⟩ : St L) (.call (.readLast keep)) = some (⟨q, hd, .test keep none⟩, none) from rfl] at he
        simp only [hb, Option.toList_none, List.nil_append, Option.some.injEq, Prod.mk.injEq] at he
        obtain ⟨rfl, rfl⟩ := he
        refine covers_run stamp l as (past ++ [.call (.readLast keep)]) ⟨q, hd, .test keep none⟩ rs0 s2 r rs ?_
          (by simpa using hst) ?_ ?_ hb
        · rw [exec_append, hp]; simp [exec, act]
        · intro h hh x hx
          simp only [Pc.val, List.nil_append] at hs
          simp only at hh
          subst hh
          exact (List.pairwise_append.1 hs).2.2 x (by simpa [Pc.val] using hx) h (by simp)
        · simp only [Pc.val, List.nil_append] at hs
          exact ⟨by simpa using (List.pairwise_append.1 hs).1, .inl hl⟩
    | _ => simp [act] at ha

/-- Without `keep_last` every execution is quiet. -/
theorem quiet_of_no_keep (as : List (Act L)) (hk : Act.call (.readLast true) ∉ as) : Quiet init as := by
  have gen : ∀ (as : List (Act L)) (s : St L), Act.call (.readLast true) ∉ as →
      (∀ v, s.pc ≠ .putBack v) → (∀ v, s.pc ≠ .test true v) → (∀ v, s.pc ≠ .get true v) → Quiet s as := by
    intro as
    induction as with
    | nil => intros; trivial
    | cons a as ih =>
      intro s hk h1 h2 h3
      refine ⟨fun _ => h1, fun s' r ha => ih s' (fun h => hk (by simp [h])) ?_ ?_ ?_⟩
      all_goals
        intro v hv
        obtain ⟨q, hd, pc⟩ := s
        cases a with
        | readline l => cases hd <;> simp [act] at ha; rw [← ha.1] at hv; first | exact h1 v hv | exact h2 v hv | exact h3 v hv
        | put => cases hd <;> simp [act] at ha; rw [← ha.1] at hv; first | exact h1 v hv | exact h2 v hv | exact h3 v hv
        | call c =>
          cases pc with
          | idle =>
            cases c with
            | read => simp [act] at ha; rw [← ha.1] at hv; simp at hv
            | readLast k =>
              cases k with
              | true => exact hk (by simp)
              | false => simp [act] at ha; rw [← ha.1] at hv; simp at hv
          | _ => simp [act] at ha
        | step =>
          cases pc with
          | idle => simp [act] at ha
          | read => cases q <;> (simp [act] at ha; rw [← ha.1] at hv; simp at hv)
          | test k w =>
            cases k with
            | true => exact h2 w rfl
            | false => cases q <;> cases w <;> (simp [act, leave] at ha; rw [← ha.1] at hv; simp at hv)
          | get k w =>
            cases k with
            | true => exact h3 w rfl
            | false => cases q <;> simp [act] at ha; rw [← ha.1] at hv; simp at hv
          | putBack w => exact h1 w rfl
  exact gen as init hk (by simp [init]) (by simp [init]) (by simp [init])

/-- **C67 without keep_last.** Every call returns a line at least as recent as every line available. -/
theorem C67_no_keep (stamp : L → ℕ) (past : List (Act L)) (hk : Act.call (.readLast true) ∉ past) :
    ReturnsNewest stamp past := C67_partial stamp past (quiet_of_no_keep past hk)

/-- A quiet history with two lines queued: the newer one is returned, and kept. -/
example : Quiet (L := ℕ) init [.readline (some 1), .put, .call (.readLast true), .step, .step, .step, .readline (some 2), .step, .put] ∧
    exec (L := ℕ) init [.readline (some 1), .put, .call (.readLast true), .step, .step, .step, .readline (some 2), .step, .put,
      .call (.readLast true), .step, .step, .step, .step, .step, .step] =
    some (⟨[2], none, .idle⟩, [⟨.readLast true, some 1⟩, ⟨.readLast true, some 2⟩]) := by
  refine ⟨?_, by decide⟩
  simp [Quiet, init, act, leave]

/-- The line a drain of the queue would end with. -/
def cand (s : St L) : Option L := (s.pc.val ++ s.q).getLast?

/-- The line the reader thread holds is more recent than everything queued or in hand. -/
theorem below_held (stamp : L → ℕ) (as : List (Act L)) (hst : Stamped stamp as) (s : St L) (rs : List (Ret L))
    (h : exec init as = some (s, rs)) : ∀ y, s.held = some y → ∀ x ∈ s.pc.val ++ s.q, stamp x < stamp y := by
  revert hst
  refine exec_inv init (fun as s rs => Stamped stamp as → ∀ y, s.held = some y → ∀ x ∈ s.pc.val ++ s.q, stamp x < stamp y)
    ?_ ?_ as s rs h
  · intro _ y hy; simp [init] at hy
  · clear h as s rs
    intro as s rs a s' r he ih ha hst
    have hst0 : Stamped stamp as := by
      unfold Stamped at hst ⊢; rw [produced_snoc] at hst; exact (List.pairwise_append.1 hst).1
    have ih := ih hst0
    have hmem := mem_produced as s rs he
    obtain ⟨q, hd, pc⟩ := s
    intro y hy x hx
    cases a with
    | readline l =>
      cases hd with
      | some z => simp [act] at ha
      | none =>
        simp only [act, Option.some.injEq, Prod.mk.injEq] at ha
        obtain ⟨rfl, rfl⟩ := ha
        simp only at hy; subst hy
        unfold Stamped at hst; rw [produced_snoc] at hst
        exact (List.pairwise_append.1 hst).2.2 x (hmem x (by simp only [List.mem_append] at hx ⊢; exact .inl hx)) y
          (by simp [produced])
    | put =>
      cases hd with
      | none => simp [act] at ha
      | some z => simp only [act, Option.some.injEq, Prod.mk.injEq] at ha; rw [← ha.1] at hy; simp at hy
    | call c =>
      cases pc <;> cases c <;> simp only [act, Option.some.injEq, Prod.mk.injEq, reduceCtorEq] at ha <;>
        (rw [← ha.1] at hx hy; exact ih y hy x (by simpa [Pc.val] using hx))
    | step =>
      cases pc with
      | idle => simp [act] at ha
      | read =>
        cases q with
        | nil => simp only [act, Option.some.injEq, Prod.mk.injEq] at ha; rw [← ha.1] at hx hy; exact ih y hy x (by simpa [Pc.val] using hx)
        | cons z q =>
          simp only [act, Option.some.injEq, Prod.mk.injEq] at ha; rw [← ha.1] at hx hy
          exact ih y hy x (by simp [Pc.val] at hx ⊢; tauto)
      | test k v =>
        cases q with
        | nil =>
          cases v <;> cases k <;> (simp [act, leave] at ha; rw [← ha.1] at hx hy; exact ih y hy x (by simp [Pc.val] at hx ⊢; try tauto))
        | cons z q => simp only [act, Option.some.injEq, Prod.mk.injEq] at ha; rw [← ha.1] at hx hy; exact ih y hy x (by simpa [Pc.val] using hx)
      | get k v => cases q with
        | nil => simp [act] at ha
        | cons z q =>
          simp only [act, Option.some.injEq, Prod.mk.injEq] at ha; rw [← ha.1] at hx hy
          exact ih y hy x (by simp [Pc.val] at hx ⊢; tauto)
      | putBack v =>
        simp only [act, Option.some.injEq, Prod.mk.injEq] at ha; rw [← ha.1] at hx hy
        exact ih y hy x (by simp [Pc.val] at hx ⊢; tauto)

/-- A stamped history: lines numbered in the order they are produced. -/
example : Stamped (L := ℕ) id [.readline (some 1), .put, .call (.readLast true), .step, .readline (some 2)] := by
  simp [Stamped, produced]

/-- **C67, partial, never back in time.** In every execution, with any mix of calls, the lines returned by successive
calls to `read_last_and_clear` never go back in the stream. -/
theorem C67_never_back (stamp : L → ℕ) (as : List (Act L)) (hst : Stamped stamp as) (s : St L) (rs : List (Ret L))
    (h : exec init as = some (s, rs)) : (newest rs).Pairwise fun a b => stamp a ≤ stamp b := by
  revert hst
  have key := exec_inv init (fun as s rs => Stamped stamp as →
      (newest rs).Pairwise (fun a b => stamp a ≤ stamp b) ∧ (∀ x ∈ newest rs, x ∈ produced as) ∧
      (∀ x ∈ newest rs, ∀ y ∈ cand s, stamp x ≤ stamp y) ∧ (∀ x ∈ newest rs, ∀ y, s.pc = .putBack y → stamp x ≤ stamp y) ∧
      ∀ y, s.held = some y → ∀ x ∈ newest rs, stamp x ≤ stamp y) ?_ ?_ as s rs h
  · intro hst; exact (key hst).1
  · intro _; simp [newest]
  · clear h as s rs
    intro as s rs a s' r he ih ha hst
    have hst0 : Stamped stamp as := by
      unfold Stamped at hst ⊢; rw [produced_snoc] at hst; exact (List.pairwise_append.1 hst).1
    obtain ⟨i1, i2, i3, i4, i5⟩ := ih hst0
    have i2' : ∀ x ∈ newest rs, x ∈ produced (as ++ [a]) := fun x hx => by
      rw [produced_snoc]; exact List.mem_append_left _ (i2 x hx)
    obtain ⟨q, hd, pc⟩ := s
    cases a with
    | readline l =>
      cases hd with
      | some x => simp [act] at ha
      | none =>
        simp only [act, Option.some.injEq, Prod.mk.injEq] at ha
        obtain ⟨rfl, rfl⟩ := ha
        simp only [Option.toList_none, List.append_nil]
        refine ⟨i1, i2', i3, i4, ?_⟩
        intro y hy x hx
        subst hy
        unfold Stamped at hst; rw [produced_snoc] at hst
        exact le_of_lt ((List.pairwise_append.1 hst).2.2 x (i2 x hx) y (by simp [produced]))
    | put =>
      cases hd with
      | none => simp [act] at ha
      | some y =>
        simp only [act, Option.some.injEq, Prod.mk.injEq] at ha
        obtain ⟨rfl, rfl⟩ := ha
        simp only [Option.toList_none, List.append_nil]
        refine ⟨i1, i2', ?_, i4, by simp⟩
        intro x hx z hz
        simp [cand] at hz
        subst hz
        exact i5 y rfl x hx
    | call c =>
      cases pc with
      | idle =>
        cases c <;>
          (simp only [act, Option.some.injEq, Prod.mk.injEq] at ha
           obtain ⟨rfl, rfl⟩ := ha
           simp only [Option.toList_none, List.append_nil]
           refine ⟨i1, i2', ?_, by simp, i5⟩
           intro x hx z hz; apply i3 x hx z; simpa [cand, Pc.val] using hz)
      | _ => simp [act] at ha
    | step =>
      cases pc with
      | idle => simp [act] at ha
      | read =>
        have hn : ∀ v, newest (rs ++ [⟨.read, v⟩]) = newest rs := by intro v; simp [newest]
        cases q with
        | nil =>
          simp only [act, Option.some.injEq, Prod.mk.injEq] at ha
          obtain ⟨rfl, rfl⟩ := ha
          simp only [Option.toList_some, hn]
          exact ⟨i1, i2', by simp [cand, Pc.val], by simp, i5⟩
        | cons x q =>
          simp only [act, Option.some.injEq, Prod.mk.injEq] at ha
          obtain ⟨rfl, rfl⟩ := ha
          simp only [Option.toList_some, hn]
          refine ⟨i1, i2', ?_, by simp, i5⟩
          intro z hz y hy
          apply i3 z hz y
          cases q with
          | nil => simp [cand, Pc.val] at hy
          | cons x' q' => simpa [cand, Pc.val, List.getLast?_cons_cons, List.getLast?_append] using hy
      | test k v =>
        cases q with
        | nil =>
          cases v with
          | none =>
            simp [act, leave] at ha
            obtain ⟨rfl, rfl⟩ := ha
            simp only [Option.toList_some, newest, List.filterMap_append, List.filterMap_cons, List.filterMap_nil, List.append_nil]
            exact ⟨i1, i2', by simp [cand, Pc.val], by simp, i5⟩
          | some w =>
            have hw : ∀ x ∈ newest rs, stamp x ≤ stamp w := fun x hx => i3 x hx w (by simp [cand, Pc.val])
            have hwm := mem_produced as _ rs he w (by simp [Pc.val])
            cases k with
            | false =>
              simp [act, leave] at ha
              obtain ⟨rfl, rfl⟩ := ha
              have hn : newest (rs ++ [⟨.readLast false, some w⟩]) = newest rs ++ [w] := by simp [newest]
              simp only [Option.toList_some, hn]
              have hmem : ∀ x ∈ newest rs ++ [w], x ∈ produced (as ++ [Act.step]) := by
                intro x hx
                rcases List.mem_append.1 hx with hx | hx
                · exact i2' x hx
                · rw [List.mem_singleton.1 hx, produced_snoc]; exact List.mem_append_left _ hwm
              refine ⟨?_, hmem, by simp [cand, Pc.val], by simp, ?_⟩
              · rw [List.pairwise_append]
                exact ⟨i1, List.pairwise_singleton _ _, fun x hx y hy => by rw [List.mem_singleton.1 hy]; exact hw x hx⟩
              · intro y hy x hx
                rcases List.mem_append.1 hx with hx | hx
                · exact i5 y hy x hx
                · rw [List.mem_singleton.1 hx]
                  exact le_of_lt (below_held stamp as hst0 _ rs he y hy w (by simp [Pc.val]))
            | true =>
              simp [act, leave] at ha
              obtain ⟨rfl, rfl⟩ := ha
              simp only [Option.toList_none, List.append_nil]
              refine ⟨i1, i2', ?_, ?_, i5⟩
              · intro x hx y hy; simp [cand, Pc.val] at hy; subst hy; exact hw x hx
              · intro x hx y hy; simp at hy; subst hy; exact hw x hx
        | cons x q =>
          simp only [act, Option.some.injEq, Prod.mk.injEq] at ha
          obtain ⟨rfl, rfl⟩ := ha
          simp only [Option.toList_none, List.append_nil]
          refine ⟨i1, i2', ?_, by simp, i5⟩
          intro z hz y hy; apply i3 z hz y; simpa [cand, Pc.val] using hy
      | get k v => cases q with
        | nil => simp [act] at ha
        | cons x q =>
          simp only [act, Option.some.injEq, Prod.mk.injEq] at ha
          obtain ⟨rfl, rfl⟩ := ha
          simp only [Option.toList_none, List.append_nil]
          refine ⟨i1, i2', ?_, by simp, i5⟩
          intro z hz y hy; apply i3 z hz y
          cases q with
          | nil => simpa [cand, Pc.val] using hy
          | cons x' q' => simpa [cand, Pc.val, List.getLast?_cons_cons, List.getLast?_append] using hy
      | putBack v =>
        simp only [act, Option.some.injEq, Prod.mk.injEq] at ha
        obtain ⟨rfl, rfl⟩ := ha
        have hw : ∀ x ∈ newest rs, stamp x ≤ stamp v := fun x hx => i4 x hx v rfl
        have hwm := mem_produced as _ rs he v (by simp [Pc.val])
        have hn : newest (rs ++ [⟨.readLast true, some v⟩]) = newest rs ++ [v] := by simp [newest]
        simp only [Option.toList_some, hn]
        have hle : ∀ x ∈ newest rs ++ [v], stamp x ≤ stamp v := by
          intro x hx
          rcases List.mem_append.1 hx with hx | hx
          · exact hw x hx
          · rw [List.mem_singleton.1 hx]
        refine ⟨?_, ?_, ?_, by simp, ?_⟩
        · rw [List.pairwise_append]
          exact ⟨i1, List.pairwise_singleton _ _, fun x hx y hy => by rw [List.mem_singleton.1 hy]; exact hw x hx⟩
        · intro x hx
          rcases List.mem_append.1 hx with hx | hx
          · exact i2' x hx
          · rw [List.mem_singleton.1 hx, produced_snoc]; exact List.mem_append_left _ hwm
        · intro x hx y hy
          simp [cand] at hy; subst hy; exact hle x hx
        · intro y hy x hx
          exact (hle x hx).trans (le_of_lt (below_held stamp as hst0 _ rs he y hy v (by simp [Pc.val])))

end Reader
end Verif
