import Verif.Proc.Model
import Verif.Queue.Model
/-!
# The lists of thread records in memory

`Model` has the list of threads and the free list as mathematical lists.  Here the same steps are
done on the links: every step of pthread.c that uses a LIST macro or clears a record runs the macros
of `Queue` on a heap.  Head 0 is `monitor_thread_list`, head 1 `monitor_free_list`
(pthread.c:191-192).  The heap has the `tn_links` fields of the records only (pthread_h.h:55).
-/

namespace Libmonitor.Proc

open Libmonitor.Queue (Elem Cell Heap)

/-- An element of an array (pthread.c:159-161, 386-387), or the initial thread's record
(main.c:155). -/
def NodeId.valid : NodeId → Prop
  | .main => True
  | .slot _ i => i < arraySize

/-- The addresses of the records, all different, and NULL. -/
structure Mem where
  addr : NodeId → Elem
  null : Elem
  inj : ∀ n m, n.valid → m.valid → addr n = addr m → n = m
  ne_null : ∀ n, n.valid → addr n ≠ null

/-- memset of a record, as far as its links are concerned: `le_next` and `le_prev` are NULL
(pthread.c:340, 394, 435). -/
def zeroLinks (M : Mem) (e : Elem) (H : Heap) : Option Heap :=
  if H.alloc e then some ((H.setCell (.next e) none).setPrev e (.next M.null)) else none

/-- malloc of an array of records, pthread.c:386-387. -/
def newArray (M : Mem) (a : Nat) (H : Heap) : Heap :=
  { H with alloc := fun e => H.alloc e || (List.range arraySize).any fun i => decide (M.addr (.slot a i) = e) }

/-- LIST_INIT of both lists, pthread.c:294-295, 352-353. -/
def initBoth (H : Heap) : Option Heap := (Queue.init 0 H).bind (Queue.init 1)

/-- What one step (`ok`: as in `fstep`) does to the links. -/
def links (M : Mem) (g : G) (t : Tid) (ok : Bool) : Frame → Heap → Option Heap
  -- monitor_thread_list_init, pthread.c:294-295
  | .pc0 .., H => if g.hasUsed then some H else initBoth H
  -- monitor_reset_thread_list, pthread.c:327-353
  | .bpReset _, H | .rfReset, H =>
    if g.hasUsed then
      match getTn g t with
      | some (.slot _ _) => (zeroLinks M (M.addr .main) H).bind initBoth
      | _ => initBoth H
    else some H
  -- monitor_make_thread_node, pthread.c:372-394
  | .mk1 .., H =>
    match H.cell (.head 1) with
    | some e => (Queue.remove e H).bind (zeroLinks M e)
    | none =>
      if g.pos < arraySize then zeroLinks M (M.addr (.slot g.arr g.pos)) H
      else if ok then zeroLinks M (M.addr (.slot (g.nArr + 1) 0)) (newArray M (g.nArr + 1) H)
      else some H
  -- monitor_link_thread_node, pthread.c:411-416
  | .bt2 n, H => if g.inExit then some H else Queue.insertHead 0 (M.addr n) H
  -- monitor_unlink_thread_node, pthread.c:430-436
  | .ul1 n, H =>
    if g.inExit then some H
    else ((Queue.remove (M.addr n) H).bind (zeroLinks M (M.addr n))).bind
      (Queue.insertHead 1 (M.addr n))
  -- monitor_thread_shootdown, pthread.c:553-560
  | .sd3, H =>
    if g.main.self = some t then some H else Queue.insertHead 0 (M.addr .main) H
  | _, H => some H

/-- What a label does to the links; a new process gets a copy of the memory. -/
def linksL (M : Mem) (s : S) : Lbl → Heap → Option Heap
  | .step t (.go ok _), H =>
    match s.th t with
    | f :: _ => links M s.g t ok f H
    | [] => some H
  | _, H => some H

/-- The memory at the start: the lists are empty, the initial thread's record and the static array
exist, the links have any values. -/
structure Start (M : Mem) (H : Heap) : Prop where
  heads : ∀ h, H.cell (.head h) = none
  main : H.alloc (M.addr .main) = true
  array : ∀ i, i < arraySize → H.alloc (M.addr (.slot 0 i)) = true
  null : H.alloc M.null = false

/-- Executions of the process with its memory; `none`: an operation on the links used memory that is
not there. -/
inductive ReachM (A : S → Lbl → Prop) (M : Mem) : S → Option Heap → Prop where
  | init {H : Heap} : Start M H → ReachM A M {} (some H)
  | next {s s' : S} {o : Option Heap} {l : Lbl} : ReachM A M s o → A s l → next s l = some s' →
      ReachM A M s' (o.bind (linksL M s l))

end Libmonitor.Proc
