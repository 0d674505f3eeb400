import Verif.Proc.Info
import Verif.Proc.Sched
/-!
# C20: monitor_get_new_thread_info
-/

namespace Libmonitor.Proc

/-- C20: in a thread that has created threads only while it was registered, one at a time, without
ignored ones, a query inside of pthread_create succeeds and is about that creation, and a query
outside fails.

Missing: threads with ignored creations (`C20_ignored_dangling`) or nested ones
(`C20_nested_cleared`), a fork inside of a creation by a thread other than the initial one
(`C20_forked_creation`), calls of threads that the library does not know (they
always fail), and executions outside `Clean`. The creation begins with the event `createCall`, where pthread_create publishes the information. -/
theorem C20_info_partial {s : S} (hs : ReachA Clean s) : Always infoSpec s.g.tr := info_inv hs

/-- Main asks in pre-create, in post-create and afterwards. -/
example : ∃ s, ReachA Clean s ∧ plain 0 s.g.tr ∧ s.g.tr.take 9 =
    [(0, .gotInfo none), (0, .createRet 0), (0, .gotInfo (some 0)), (0, .postCreate 0 9),
     (0, .spawn 0 1 (.slot 0 0) 70 71 9), (0, .preCreateRet 0 9), (0, .gotInfo (some 0)),
     (0, .preCreate 0), (0, .supportRet)] := by
  obtain ⟨s, hr, hp⟩ := exists_of_runA (A := Clean)
    (ls := toMain ++ C 0 (.create 70 71) ++ T 0 10 ++ C 0 .info ++ T 0 1 ++ V 0 9 ++ T 0 6 ++
      C 0 .info ++ T 0 2 ++ C 0 .info ++ T 0 1)
    (p := fun s => decide (s.g.tr =
    [(0, .gotInfo none), (0, .createRet 0), (0, .gotInfo (some 0)), (0, .postCreate 0 9),
     (0, .spawn 0 1 (.slot 0 0) 70 71 9), (0, .preCreateRet 0 9), (0, .gotInfo (some 0)),
     (0, .preCreate 0), (0, .supportRet), (0, .support), (0, .createCall 0 70 71), (0, .appMain),
     (0, .atMain), (0, .initProcessRet 0), (0, .initProcess 0), (0, .initLibraryRet),
     (0, .initLibrary)])) (by decide +kernel)
  have h := of_decide_eq_true hp
  refine ⟨s, hr, ?_, ?_⟩
  · rw [h]
    simp [plain, Always, plainStep, registered, openCalls, mainOf]
  · rw [h]; rfl

/-- Thread 1's first creation fails; the second is asked about in pre-create. -/
example : ∃ s, ReachA Clean s ∧ s.g.tr.take 8 =
    [(1, .gotInfo (some 2)), (1, .preCreate 2), (1, .createCall 2 90 91), (1, .gotInfo none),
     (1, .createRet 1), (1, .postCreate 1 10), (1, .spawnFail 1), (1, .preCreateRet 1 10)] := by
  obtain ⟨s, hr, hp⟩ := exists_of_runA (A := Clean)
    (ls := toMain ++ create1 0 70 71 9 ++ begin 1 5 ++ C 1 (.create 80 81) ++ T 1 6 ++ V 1 10 ++
      T 1 4 ++ F 1 ++ T 1 2 ++ C 1 .info ++ T 1 1 ++ C 1 (.create 90 91) ++ T 1 6 ++
      C 1 .info ++ T 1 1)
    (p := fun s => decide (s.g.tr.take 8 =
    [(1, .gotInfo (some 2)), (1, .preCreate 2), (1, .createCall 2 90 91), (1, .gotInfo none),
     (1, .createRet 1), (1, .postCreate 1 10), (1, .spawnFail 1), (1, .preCreateRet 1 10)]))
    (by decide +kernel)
  exact ⟨s, hr, of_decide_eq_true hp⟩

/-- Against C20: pre-create has the new thread ignored, and the query succeeds after pthread_create
has returned. In C the caller's record then points into the stack frame that is gone. -/
theorem C20_ignored_dangling : ∃ s, ReachA Clean s ∧ openCalls 0 s.g.tr = [] ∧ s.g.tr.take 4 =
    [(0, .gotInfo (some 0)), (0, .createRet 0), (0, .spawnIgn 0 1 70 71),
     (0, .preCreateRet 0 ignoreData)] := by
  obtain ⟨s, hr, hp⟩ := exists_of_runA (A := Clean)
    (ls := toMain ++ C 0 (.create 70 71) ++ T 0 10 ++ V 0 1 ++ T 0 1 ++ C 0 .info ++ T 0 1)
    (p := fun s => decide (openCalls 0 s.g.tr = [] ∧ s.g.tr.take 4 =
    [(0, .gotInfo (some 0)), (0, .createRet 0), (0, .spawnIgn 0 1 70 71),
     (0, .preCreateRet 0 ignoreData)])) (by decide +kernel)
  exact ⟨s, hr, of_decide_eq_true hp⟩

/-- Against C20: after a creation made by the pre-create callback, the query fails although the
outer creation is in progress. -/
theorem C20_nested_cleared : ∃ s, ReachA Clean s ∧ openCalls 0 s.g.tr = [0] ∧ s.g.tr.take 3 =
    [(0, .gotInfo none), (0, .createRet 1), (0, .postCreate 1 10)] := by
  obtain ⟨s, hr, hp⟩ := exists_of_runA (A := Clean)
    (ls := toMain ++ C 0 (.create 70 71) ++ T 0 10 ++ createN 0 80 81 10 ++ C 0 .info ++ T 0 1)
    (p := fun s => decide (openCalls 0 s.g.tr = [0] ∧ s.g.tr.take 3 =
    [(0, .gotInfo none), (0, .createRet 1), (0, .postCreate 1 10)])) (by decide +kernel)
  exact ⟨s, hr, of_decide_eq_true hp⟩

/-- Against C20: the client ends the thread in its pre-create callback; the thread's fini-thread
callback gets the information about the creation that will not return. -/
theorem C20_unwound_creation : ∃ s, ReachA Clean s ∧ s.g.tr.take 4 =
    [(1, .gotInfo (some 1)), (1, .finiThread 1 5 .cleanup), (1, .preCreate 1),
     (1, .createCall 1 80 81)] := by
  obtain ⟨s, hr, hp⟩ := exists_of_runA (A := Clean)
    (ls := toMain ++ create1 0 70 71 9 ++ begin 1 5 ++ C 1 (.create 80 81) ++ T 1 6 ++ U 1 ++
      T 1 2 ++ C 1 .info ++ T 1 1)
    (p := fun s => decide (s.g.tr.take 4 =
    [(1, .gotInfo (some 1)), (1, .finiThread 1 5 .cleanup), (1, .preCreate 1),
     (1, .createCall 1 80 81)])) (by decide +kernel)
  exact ⟨s, hr, of_decide_eq_true hp⟩

/-- Against C20: an ignored thread forks while main is inside of pthread_create; in the child it is
the initial thread, and the query succeeds with main's creation. -/
theorem C20_forked_info : ∃ s, ReachA Clean s ∧ openCalls 1 s.g.tr = [] ∧
    (1, .gotInfo (some 1)) ∈ own s.g.tr ∧ (0, .createCall 1 80 81) ∈ s.g.tr := by
  obtain ⟨s, hr, hp⟩ := exists_of_runA (A := Clean)
    (ls := toMain ++ C 0 (.create 70 71) ++ T 0 10 ++ V 0 1 ++ T 0 1 ++
      C 0 (.create 80 81) ++ T 0 6 ++ T 1 1 ++ C 1 .realFork ++ [.fork 1] ++ T 1 1 ++ C 1 .info ++ T 1 1)
    (p := fun s => decide (openCalls 1 s.g.tr = [] ∧
    (1, .gotInfo (some 1)) ∈ own s.g.tr ∧ (0, .createCall 1 80 81) ∈ s.g.tr)) (by decide +kernel)
  exact ⟨s, hr, of_decide_eq_true hp⟩

/-- Against C20: thread 1 forks in its pre-create callback; in the child the query fails although the
creation is in progress (outside `Clean`). -/
theorem C20_forked_creation : ∃ s, Reach s ∧ openCalls 1 s.g.tr = [2] ∧
    s.g.tr.take 2 = [(1, .gotInfo none), (1, .forkRet 3 0)] ∧ (1, .preCreate 2) ∈ s.g.tr := by
  obtain ⟨s, hr, hp⟩ := exists_of_run
    (ls := three ++ C 1 (.create 90 91) ++ T 1 6 ++ C 1 .fork ++ T 1 2 ++ [.fork 1] ++ T 1 7 ++
      C 1 .info ++ T 1 1)
    (p := fun s => decide (openCalls 1 s.g.tr = [2] ∧
    s.g.tr.take 2 = [(1, .gotInfo none), (1, .forkRet 3 0)] ∧ (1, .preCreate 2) ∈ s.g.tr)) (by decide +kernel)
  exact ⟨s, hr, of_decide_eq_true hp⟩

end Libmonitor.Proc
