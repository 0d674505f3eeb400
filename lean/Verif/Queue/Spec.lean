import Verif.Queue.Model

/-!
# What the macros should do: operations on mathematical lists

`Lists` gives the contents of every head.  Nothing here mentions pointers except `Holds`,
which says what an observer walking the list sees.
-/

namespace Libmonitor.Queue.Spec

/-- The contents of every list head. -/
abbrev Lists := Nat → List Elem

def upd (L : Lists) (h : Nat) (l : List Elem) : Lists := fun h' => if h' = h then l else L h'

/-- `e` is on some list. -/
def OnList (L : Lists) (e : Elem) : Prop := ∃ h, e ∈ L h

/-- `e` put directly after `x`. -/
def putAfter (x e : Elem) : List Elem → List Elem
  | [] => []
  | a :: l => if a = x then a :: e :: l else a :: putAfter x e l

/-- `e` put directly before `x`. -/
def putBefore (x e : Elem) : List Elem → List Elem
  | [] => []
  | a :: l => if a = x then e :: a :: l else a :: putBefore x e l

/-- The effect of an operation on the contents. -/
def effect : Op → Lists → Lists
  | .init h, L => upd L h []
  | .insertHead h e, L => upd L h (e :: L h)
  | .insertAfter x e, L => fun h => putAfter x e (L h)
  | .insertBefore x e, L => fun h => putBefore x e (L h)
  | .remove e, L => fun h => (L h).erase e

/-- Correct use: only elements that are on no list are inserted, only elements on a
list are removed or used as position. -/
def Allowed : Op → Lists → Prop
  | .init _, _ => True
  | .insertHead _ e, L => ¬ OnList L e
  | .insertAfter x e, L => OnList L x ∧ ¬ OnList L e
  | .insertBefore x e, L => OnList L x ∧ ¬ OnList L e
  | .remove e, L => OnList L e

/-- Every operation of the history is correct use. -/
def AllowedAll : List Op → Lists → Prop
  | [], _ => True
  | o :: os, L => Allowed o L ∧ AllowedAll os (effect o L)

def effects : List Op → Lists → Lists
  | [], L => L
  | o :: os, L => effects os (effect o L)

/-- The memory at cell `c` is the start of a well-formed doubly linked chain with elements
`l`: each element is allocated and its `le_prev` points to the cell that points to it. -/
def Chain (H : Heap) : Cell → List Elem → Prop
  | c, [] => H.cell c = none
  | c, e :: l => H.cell c = some e ∧ H.alloc e = true ∧ H.prev e = c ∧ Chain H (.next e) l

/-- Memory represents the lists: well-formed chains, no element twice, lists disjoint. -/
structure Represents (H : Heap) (L : Lists) : Prop where
  chain : ∀ h, Chain H (.head h) (L h)
  nodup : ∀ h, (L h).Nodup
  disj : ∀ h h', h ≠ h' → ∀ e, e ∈ L h → e ∉ L h'

/-- Walking any list in memory visits exactly its contents, in order, and ends. -/
def Holds (H : Heap) (L : Lists) : Prop := ∀ h, walk H (L h).length (.head h) = some (L h)

/-- The elements an operation mentions. -/
def elems : Op → List Elem
  | .init _ => []
  | .insertHead _ e => [e]
  | .insertAfter x e => [x, e]
  | .insertBefore x e => [x, e]
  | .remove e => [e]

/-- Nothing is written outside of the head `h` and the elements of `l`; nothing is allocated
or freed. -/
structure OnlyTouches (H H' : Heap) (h : Nat) (l : List Elem) : Prop where
  alloc : H'.alloc = H.alloc
  head : ∀ h', h' ≠ h → H'.cell (.head h') = H.cell (.head h')
  next : ∀ x, x ∉ l → H'.cell (.next x) = H.cell (.next x)
  prev : ∀ x, x ∉ l → H'.prev x = H.prev x

end Libmonitor.Queue.Spec
