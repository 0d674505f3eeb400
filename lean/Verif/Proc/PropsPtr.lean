import Verif.Proc.PtrWalk
import Verif.Proc.PropsThread
/-!
# C64: the links in memory
-/

namespace Libmonitor.Proc

open Libmonitor.Queue (Elem Cell Heap)
open Libmonitor.Queue.Spec

/-- C64: no operation on the links uses memory that is not there, and whoever follows the links
from the two list heads sees exactly the registered threads and exactly the free records, in order.

Missing: executions outside `Clean` (`C64_dead_thread_listed`). -/
theorem C64_lists_partial {M : Mem} {s : S} {o : Option Heap} (hs : ReachM Clean M s o) :
    ∃ H, o = some H ∧
      Queue.walk H s.g.list.length (.head 0) = some (s.g.list.map M.addr) ∧
      Queue.walk H s.g.free.length (.head 1) = some (s.g.free.map M.addr) := by
  obtain ⟨H, e, hm⟩ := mem_inv hs
  have h := Queue.holds_of_represents hm.1
  refine ⟨H, e, ?_, ?_⟩
  · have := h 0
    simpa [two] using this
  · have := h 1
    simpa [two] using this

/-- C64: while a thread goes over the list (exit cleanup or monitor_broadcast_signal) and the loop
variable is at record `n`, LIST_NEXT reads the address of the record that the loop has to visit
next, `NULL` at the end: links never change under a walk, neither by threads that register or end
nor by the exit cleanup that adds the initial thread.

Missing: executions outside `CleanWalk`, where it is false (`C64_walk_cut`). -/
theorem C64_next_partial {M : Mem} {s : S} {o : Option Heap} (hs : ReachM CleanWalk M s o) {t : Tid}
    {f : Frame} (hf : f ∈ s.th t) {n : NodeId} {todo : List NodeId} (hw : f.walk = some (n :: todo)) :
    ∃ H, o = some H ∧ H.load (.next (M.addr n)) = some (todo.head?.map M.addr) := by
  have hs' : ReachM Clean M s o := by
    clear hf
    induction hs with
    | init h => exact .init h
    | next _ hA hn ih => exact .next ih hA.1 hn
  obtain ⟨H, e, hm⟩ := mem_inv hs'
  obtain ⟨l1, h1⟩ := (walks_inv (reach_of_mem hs) t f hf _ hw).1
  refine ⟨H, e, ?_⟩
  have hc := hm.1.chain 0
  simp only [two, if_true] at hc
  rw [← h1, List.map_append, List.map_cons] at hc
  rw [chain_next hc, List.head?_map]

/-- Addresses for the examples: NULL is 0, then the initial thread's record, then the arrays. -/
def someMem : Mem where
  addr
    | .main => 1
    | .slot a i => 2 + (a * arraySize + i)
  null := 0
  inj := by
    intro n m hn hm h
    cases n <;> cases m <;> simp only [NodeId.valid, arraySize] at hn hm <;>
      simp only [arraySize] at h
    · rfl
    · rename_i b j
      have h' : (1 : Nat) = 2 + (b * 600 + j) := h
      omega
    · rename_i a i
      have h' : 2 + (a * 600 + i) = (1 : Nat) := h
      omega
    · rename_i a i b j
      have h' : (2 + (a * 600 + i) : Nat) = 2 + (b * 600 + j) := h
      have h1 : a = b := by omega
      have h2 : i = j := by omega
      rw [h1, h2]
  ne_null := by intro n _; cases n <;> simp

/-- ... and memory with arbitrary values in the links. -/
def someHeap : Heap where
  cell c := match c with | .head _ => none | .next _ => some 7
  prev _ := .head 99
  alloc e := decide (1 ≤ e ∧ e < 2 + arraySize)

theorem someStart : Start someMem someHeap where
  heads _ := rfl
  main := by decide
  array := by
    intro i hi
    simp only [arraySize] at hi
    show decide (1 ≤ 2 + (0 * 600 + i) ∧ 2 + (0 * 600 + i) < 2 + 600) = true
    rw [decide_eq_true_eq]
    omega
  null := by decide

/-- Thread 3 has thread 1's record and calls exit; the walk over main, thread 3 and thread 2 is at
thread 3's record. -/
example : ∃ s H, ReachM CleanWalk someMem s (some H) ∧ (∃ f ∈ s.th 3,
      f.walk = some [.slot 0 0, .slot 0 1]) ∧
    Queue.walk H 3 (.head 0) = some [1, 2, 3] ∧ H.load (.next 2) = some (some 3) := by
  obtain ⟨s, H, hr, hp⟩ := exists_of_runM (A := CleanWalk) someStart
    (ls := recordReused ++ C 3 .exit ++ T 3 11)
    (p := fun s H => decide ((∃ f ∈ s.th 3, f.walk = some [.slot 0 0, .slot 0 1]) ∧
      Queue.walk H 3 (.head 0) = some [1, 2, 3] ∧ H.load (.next 2) = some (some 3)))
    (by decide +kernel)
  exact ⟨s, H, hr, of_decide_eq_true hp⟩

/-- C64 fails for a walk that is interrupted by a handler that forks: thread 1 is in the exit cleanup
and has put main on the list, thread 2 broadcasts a signal and is at main's record.  In the child
main's record is cleared, the walk ends there although records are left. -/
theorem C64_walk_cut : ∃ s H, ReachM Clean someMem s (some H) ∧
    (∃ f ∈ s.th 2, f.walk = some [.main, .slot 0 1, .slot 0 0]) ∧ H.load (.next 1) = some none := by
  obtain ⟨s, H, hr, hp⟩ := exists_of_runM (A := Clean) someStart
    (ls := three ++ C 1 .exit ++ T 1 8 ++ C 2 (.broadcast 7) ++ T 2 2 ++ I 2 ++ C 2 .fork ++ T 2 1 ++
      V 2 9 ++ [.fork 2] ++ T 2 2)
    (p := fun s H => decide ((∃ f ∈ s.th 2, f.walk = some [.main, .slot 0 1, .slot 0 0]) ∧
      H.load (.next 1) = some none))
    (by decide +kernel)
  exact ⟨s, H, hr, of_decide_eq_true hp⟩

/-- C64 fails outside `Clean`: thread 2 forks in its start routine and returns from it in the child;
LIST_REMOVE of its stale record puts the record of thread 1, which does not exist in the child, on
the child's list. -/
theorem C64_dead_thread_listed : ∃ s H, ReachM (fun _ _ => True) someMem s (some H) ∧
    s.g.list = [] ∧ s.th 1 = [] ∧ Queue.walk H 1 (.head 0) = some [someMem.addr (.slot 0 0)] := by
  obtain ⟨s, H, hr, hp⟩ := exists_of_runM (A := fun _ _ => True) someStart
    (ls := three ++ C 2 .fork ++ T 2 1 ++ V 2 9 ++ [.fork 2] ++ T 2 7 ++ T 2 6)
    (p := fun s H => decide (s.g.list = [] ∧ s.th 1 = [] ∧
      Queue.walk H 1 (.head 0) = some [someMem.addr (.slot 0 0)]))
    (by decide +kernel)
  exact ⟨s, H, hr, of_decide_eq_true hp⟩

end Libmonitor.Proc
