/-!
# queue.h: LIST_* macros on raw pointers

A heap has any number of list heads and elements.  `prev` is the `le_prev` field, a pointer
to the *cell* that points to the element: either a head's `lh_first` or another element's
`le_next`.  Using an element that is not allocated is undefined behaviour: the operation
has no result (`none`).
-/

namespace Libmonitor.Queue

/-- Elements (addresses of nodes), `0, 1, ...`. -/
abbrev Elem := Nat

/-- Addresses of pointer cells: `&head->lh_first` or `&elm->le_next`
(queue.h:327-339, LIST_HEAD and LIST_ENTRY). -/
inductive Cell where
  | head (h : Nat)
  | next (e : Elem)
  deriving DecidableEq, Repr

/-- Memory: the cells, the `le_prev` fields, and which elements are allocated
(queue.h:327-339).  An element on its own has no other contents here; the payload of a
thread node is never touched by the macros. -/
structure Heap where
  cell : Cell → Option Elem
  prev : Elem → Cell
  alloc : Elem → Bool

/-- Store to a pointer cell. -/
def Heap.setCell (H : Heap) (c : Cell) (v : Option Elem) : Heap :=
  { H with cell := fun c' => if c' = c then v else H.cell c' }

/-- Store to an `le_prev` field. -/
def Heap.setPrev (H : Heap) (e : Elem) (c : Cell) : Heap :=
  { H with prev := fun e' => if e' = e then c else H.prev e' }

/-- Is the memory behind a cell address allocated?  Heads are static variables
(pthread.c:192-193). -/
def Heap.cellOk (H : Heap) : Cell → Bool
  | .head _ => true
  | .next e => H.alloc e

/-- Read through a pointer to a cell; `none` is undefined behaviour. -/
def Heap.load (H : Heap) (c : Cell) : Option (Option Elem) :=
  if H.cellOk c then some (H.cell c) else none

/-- Write through a pointer to a cell; `none` is undefined behaviour. -/
def Heap.store (H : Heap) (c : Cell) (v : Option Elem) : Option Heap :=
  if H.cellOk c then some (H.setCell c v) else none

/-- Read an `le_prev` field; `none` is undefined behaviour. -/
def Heap.loadPrev (H : Heap) (e : Elem) : Option Cell :=
  if H.alloc e then some (H.prev e) else none

/-- Write an `le_prev` field; `none` is undefined behaviour. -/
def Heap.storePrev (H : Heap) (e : Elem) (c : Cell) : Option Heap :=
  if H.alloc e then some (H.setPrev e c) else none

/-- LIST_INIT, queue.h:342-344. -/
def init (h : Nat) (H : Heap) : Option Heap := H.store (.head h) none

/-- LIST_INSERT_HEAD, queue.h:361-366. -/
def insertHead (h : Nat) (e : Elem) (H : Heap) : Option Heap := do
  let f ← H.load (.head h)
  let H ← H.store (.next e) f
  let H ← (match f with
    | none => some H
    | some f => H.storePrev f (.next e))
  let H ← H.store (.head h) (some e)
  H.storePrev e (.head h)

/-- LIST_INSERT_AFTER, queue.h:346-352 (not used by libmonitor). -/
def insertAfter (l e : Elem) (H : Heap) : Option Heap := do
  let n ← H.load (.next l)
  let H ← H.store (.next e) n
  let H ← (match n with
    | none => some H
    | some n => H.storePrev n (.next e))
  let H ← H.store (.next l) (some e)
  H.storePrev e (.next l)

/-- LIST_INSERT_BEFORE, queue.h:354-359 (not used by libmonitor). -/
def insertBefore (l e : Elem) (H : Heap) : Option Heap := do
  let p ← H.loadPrev l
  let H ← H.storePrev e p
  let H ← H.store (.next e) (some l)
  let p ← H.loadPrev l
  let H ← H.store p (some e)
  H.storePrev l (.next e)

/-- LIST_REMOVE, queue.h:370-375. -/
def remove (e : Elem) (H : Heap) : Option Heap := do
  let n ← H.load (.next e)
  let p ← H.loadPrev e
  let H ← (match n with
    | none => some H
    | some n => H.storePrev n p)
  let p ← H.loadPrev e
  let n ← H.load (.next e)
  H.store p n

/-- The walk `for (tn = LIST_FIRST(..); tn != NULL; tn = LIST_NEXT(tn))`,
pthread.c:579-581 and 778-780: the elements visited, starting from a cell; `none` if memory
outside of the allocated elements is read or the walk has not ended after `fuel` elements. -/
def walk (H : Heap) : Nat → Cell → Option (List Elem)
  | fuel, c =>
    match H.load c with
    | none => none
    | some none => some []
    | some (some e) =>
      match fuel with
      | 0 => none
      | fuel + 1 => (walk H fuel (.next e)).map (e :: ·)

/-- The operations on heads and elements. -/
inductive Op where
  | init (h : Nat)
  | insertHead (h : Nat) (e : Elem)
  | insertAfter (l e : Elem)
  | insertBefore (l e : Elem)
  | remove (e : Elem)
  deriving DecidableEq, Repr

def exec : Op → Heap → Option Heap
  | .init h, H => Queue.init h H
  | .insertHead h e, H => Queue.insertHead h e H
  | .insertAfter l e, H => Queue.insertAfter l e H
  | .insertBefore l e, H => Queue.insertBefore l e H
  | .remove e, H => Queue.remove e H

/-- A history of operations. -/
def run : List Op → Heap → Option Heap
  | [], H => some H
  | o :: os, H => (exec o H).bind (run os)

end Libmonitor.Queue
