import Verif.Model.Py
import Mathlib.Data.List.Basic
import Mathlib.Data.Int.Basic

/-!
# Drawing a sequence of visual items: `visualization/matplotlib/viz_interface.py`

Of matplotlib the model keeps the objects on the plot: every drawing function adds new objects, `remove` takes an object off the
plot and refuses an object that is not on it. What the objects look like is given by the item they were drawn for and their part in
it. The drawing functions of matplotlib themselves do not raise in the model (an item with arrays of different lengths would).
-/

set_option linter.unusedSectionVars false
set_option autoImplicit false

namespace Verif
namespace Viz

/-- The values of `item.type` (visuals.py:17, 30, 49, 95). An axis has `ticks` entries in the shortest of its three lists of tick
properties (viz_interface.py:24). Labels and boxes keep `None` (visuals.py:136-155): `other`. -/
inductive Kind where
  | axis (ticks : ℕ)
  | function
  | point
  | other
  deriving DecidableEq

/-- A visual item (visuals.py:12-20): identifier, type, and everything that determines its looks. -/
structure Item where
  id : ℤ
  kind : Kind
  look : ℕ
  deriving DecidableEq

/-- The parts of a drawn item. -/
inductive Part where
  | curve
  | dot
  | axisLine
  | tickLine (k : ℕ)
  | tickLabel (k : ℕ)
  deriving DecidableEq

/-- An object on the plot; `serial` is its identity. -/
structure Artist where
  serial : ℕ
  item : Item
  part : Part
  deriving DecidableEq

/-- What the drawing functions return: a list of objects, or one object that is not iterable (`ax.scatter`). -/
inductive Drawn where
  | elems (l : List Artist)
  | single (a : Artist)
  deriving DecidableEq

/-- The plot and the two lists of draw_sequence. -/
structure State where
  next : ℕ
  shown : List Artist
  ids : List ℤ
  items : List Drawn
  deriving DecidableEq

/-- Number the new objects. -/
def number (n : ℕ) (it : Item) (ps : List Part) : List Artist := ps.mapIdx fun k p => ⟨n + k, it, p⟩

/-- The objects added to the plot by viz_interface.py:16-46 `draw_axis`, in order: the line, then per tick its line and its label. -/
def axisParts (ticks : ℕ) : List Part :=
  .axisLine :: (List.range ticks).flatMap fun k => [.tickLine k, .tickLabel k]

/-- viz_interface.py:20-49 the list returned by `draw_axis`: the axis line, the labels, and at the end the object that the variable
`l` refers to: the line of the last tick, or the axis line once more if there are no ticks. -/
def axisElems (n : ℕ) (it : Item) (ticks : ℕ) : List Artist :=
  let a := ⟨n, it, .axisLine⟩
  a :: (List.range ticks).map (fun k => ⟨n + 1 + 2 * k + 1, it, .tickLabel k⟩) ++
    [if ticks = 0 then a else ⟨n + 1 + 2 * (ticks - 1), it, .tickLine (ticks - 1)⟩]

/-- viz_interface.py:52-60 `draw_item` with 6-13 `draw_point`, `draw_func` and 16-49 `draw_axis`. -/
def drawItem (it : Item) (S : State) : Except PyErr (State × Drawn) :=
  let add (ps : List Part) : State := { S with next := S.next + ps.length, shown := S.shown ++ number S.next it ps }
  match it.kind with
  | .axis ticks => .ok (add (axisParts ticks), .elems (axisElems S.next it ticks))
  | .function => .ok (add [.curve], .elems [⟨S.next, it, .curve⟩])
  | .point => .ok (add [.dot], .single ⟨S.next, it, .dot⟩)
  | .other => .error .notImplemented

/-- `elem.remove()` of matplotlib: an object that was removed before raises NotImplementedError. -/
def remove (S : State) (a : Artist) : Except PyErr State :=
  if a ∈ S.shown then .ok { S with shown := S.shown.erase a } else .error .notImplemented

/-- viz_interface.py:81-82: iterating over a single object is a TypeError. -/
def removeAll (S : State) : Drawn → Except PyErr State
  | .elems l => l.foldlM remove S
  | .single _ => .error .type

/-- viz_interface.py:76-86 one step of the loop: `object_idxs.index` raises ValueError for a new identifier. -/
def step (S : State) (it : Item) : Except PyErr State :=
  match S.ids.idxOf? it.id with
  | some k =>
    match S.items[k]? with
    | none => .error .index
    | some d => do
      let S ← removeAll S d
      let (S, d) ← drawItem it S
      return { S with items := S.items.set k d }
  | none => do
    let S := { S with ids := S.ids ++ [it.id] }
    let (S, d) ← drawItem it S
    return { S with items := S.items ++ [d] }

/-- viz_interface.py:73-86 `draw_sequence` on an empty plot. -/
def drawSequence (seq : List Item) : Except PyErr State := seq.foldlM step ⟨0, [], [], []⟩

end Viz
end Verif
