import Verif.Proc.Ub
import Verif.Proc.PropsThread
/-!
# C63: the operations on the lists of thread records
-/

namespace Libmonitor.Proc

/-- C63: no record is taken off the list of threads that is not on it, and none is put on it that is
on it already (`ub`; in C these write through stale links, pthread.c:416, 434).

Missing: executions outside `Clean` (`C63_orphan_unlinks`). -/
theorem C63_operations_partial {s : S} (hs : ReachA Clean s) : s.g.ub = false :=
  ub_inv hs

/-- C63: no record is twice on the list of threads, twice on the free list, or on both.

Missing: executions outside `Clean` (`C63_twice_free`). -/
theorem C63_lists_partial {s : S} (hs : ReachA Clean s) : (s.g.list ++ s.g.free).Nodup := by
  refine List.nodup_iff_count.2 fun n => ?_
  rw [List.count_append]
  exact lists_count hs n

/-- C63: the records of the array that are still to be handed out (`monitor_tn_array_pos` and
above), and those of arrays not allocated yet, are on neither list.

Missing: executions outside `Clean`; the time between fork and the reset of the lists in the
child. -/
theorem C63_array_partial {s : S} (hs : ReachA Clean s) (hb : born s.g.tr = false) {a i : Nat}
    (hi : a = s.g.arr ∧ s.g.pos ≤ i ∨ s.g.nArr < a) :
    NodeId.slot a i ∉ s.g.list ∧ NodeId.slot a i ∉ s.g.free := by
  have h := (lists_live hs hb (.slot a i)).2
  have hu : unalloc s.g.arr s.g.pos s.g.nArr (.slot a i) = true := by
    simpa [unalloc] using hi
  rw [hu] at h
  exact ⟨fun hm => by simpa using h (Or.inl hm), fun hm => by simpa using h (Or.inr hm)⟩

/-- C63: in every execution the initial thread's record is on the list of threads at most once, and
never on the free list. -/
theorem C63_main {s : S} (hs : Reach s) : s.g.list.count .main ≤ 1 ∧ NodeId.main ∉ s.g.free :=
  ⟨(main_count hs).2, (rec_inv hs).1⟩

/-- Thread 1 is finished and its record on the free list, thread 2's is linked. -/
example : ∃ s, ReachA Clean s ∧ s.g.list = [.slot 0 1] ∧ s.g.free = [.slot 0 0] ∧
    born s.g.tr = false ∧ s.g.pos ≤ 2 := by
  obtain ⟨s, hr, hp⟩ := exists_of_runA (A := Clean) (ls := oneDying)
    (p := fun s => decide (s.g.list = [.slot 0 1] ∧ s.g.free = [.slot 0 0] ∧
      born s.g.tr = false ∧ s.g.pos ≤ 2)) (by decide +kernel)
  exact ⟨s, hr, of_decide_eq_true hp⟩

/-- ... thread 3 has got thread 1's record and calls exit: the initial thread is on the list, too. -/
example : ∃ s, ReachA Clean s ∧ s.g.list = [.main, .slot 0 0, .slot 0 1] ∧ s.g.ub = false := by
  obtain ⟨s, hr, hp⟩ := exists_of_runA (A := Clean) (ls := recordReused ++ C 3 .exit ++ T 3 8)
    (p := fun s => decide (s.g.list = [.main, .slot 0 0, .slot 0 1] ∧ s.g.ub = false))
    (by decide +kernel)
  exact ⟨s, hr, of_decide_eq_true hp⟩

/-- C63 fails outside `Clean`: a thread that forks in its start routine and returns from it in the
child takes its record off the child's list, where it is not. -/
theorem C63_orphan_unlinks : ∃ s, Reach s ∧ s.g.ub = true := by
  obtain ⟨s, hr, hp⟩ := exists_of_run
    (ls := toMain ++ create1 0 70 71 9 ++ begin 1 5 ++ C 1 .fork ++ T 1 1 ++ V 1 9 ++ [.fork 1] ++
      T 1 7 ++ T 1 6)
    (p := fun s => s.g.ub) (by decide +kernel)
  exact ⟨s, hr, hp⟩

/-- C63 fails outside `Clean`: in a child, before its lists are reset, a signal handler creates
thread 2; after the reset its record is handed out again, to thread 4, which links it when thread 2
is finished and the record on the free list. -/
theorem C63_twice_free : ∃ s, Reach s ∧ NodeId.slot 0 1 ∈ s.g.list ∧ NodeId.slot 0 1 ∈ s.g.free := by
  obtain ⟨s, hr, hp⟩ := exists_of_run
    (ls := toMain ++ create1 0 70 71 9 ++ C 0 .fork ++ T 0 1 ++ V 0 9 ++ [.fork 0] ++ I 0 ++
      createN 0 80 81 10 ++ T 0 8 ++ C 0 (.create 82 83) ++ T 0 7 ++ V 0 11 ++ T 0 7 ++
      createN 0 84 85 12 ++ begin 2 6 ++ T 2 6 ++ T 4 3)
    (p := fun s => decide (NodeId.slot 0 1 ∈ s.g.list ∧ NodeId.slot 0 1 ∈ s.g.free))
    (by decide +kernel)
  exact ⟨s, hr, of_decide_eq_true hp⟩

end Libmonitor.Proc
