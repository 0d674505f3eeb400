import Verif.Proc.PtInv
import Verif.Proc.PropsThread
import Verif.Proc.PropsShoot
import Verif.Proc.PropsBroad
import Verif.Proc.Sched
/-!
# C91: pthread_t values that are given again
-/

namespace Libmonitor.Proc

/-- C91, the comparisons: when a thread compares its pthread_t with that in a record, the two are
equal exactly if the record is its own, for every way in which the system gives the pthread_t of
threads that are gone to new ones.

Missing: executions outside `Clean`; threads that end a second time while they are ending, that end
before their start routine or with monitor_block_shootdown in effect (`C91_twice`, `C91_early`,
`C91_blocked`); broadcasts during the exit cleanup, and calls that go on in a child of a fork inside
them (`OwnCalls`). -/
theorem C91_compare_partial {pt : Tid → Nat} {s : S} (hs : ReachP pt (CleanP pt) s) {t : Tid}
    {ok : Bool} {v : Nat} (hA : CleanP pt s (.step t (.go ok v))) {n : NodeId}
    (hn : comparedTo (s.th t) = some n) :
    ∃ u, (s.g.nodes n).self = some u ∧ (pt u = pt t ↔ u = t) := by
  rw [reachP_iff] at hs
  obtain ⟨u, h1, h2⟩ := compares_self hs hA hn
  exact ⟨u, h1, h2, fun e => by rw [e]⟩

/-- Thread 2 has the pthread_t that thread 1 had, and compares it with that in its own record; the
record of thread 1 is gone. -/
def again (t : Tid) : Nat := if t = 2 then 1 else t

example : ∃ s, ReachP again (CleanP again) s ∧ CleanP again s (.step 2 (.go true 0)) ∧
    comparedTo (s.th 2) = some (.slot 0 0) ∧ (1, .start 70 71) ∈ s.g.tr ∧ again 1 = again 2 := by
  obtain ⟨s, hr, hp⟩ := exists_of_runP (pt := again) (A := CleanP again)
    (ls := toMain ++ create1 0 70 71 9 ++ begin 1 5 ++ T 1 7 ++ createN 0 80 81 10 ++ begin 2 6 ++
      C 2 .exit ++ T 2 11)
    (p := fun s => decide (CleanP again s (.step 2 (.go true 0)) ∧
      comparedTo (s.th 2) = some (.slot 0 0) ∧ (1, .start 70 71) ∈ s.g.tr)) (by decide +kernel)
  obtain ⟨h1, h2, h3⟩ := of_decide_eq_true hp
  exact ⟨s, hr, h1, h2, h3, rfl⟩

/-- The same in a child, whose parent had thread 1. -/
example : ∃ s, ReachP again (CleanP again) s ∧ CleanP again s (.step 2 (.go true 0)) ∧
    comparedTo (s.th 2) = some (.slot 0 0) ∧ startedBy s.g.tr = some false := by
  obtain ⟨s, hr, hp⟩ := exists_of_runP (pt := again) (A := CleanP again)
    (ls := toMain ++ create1 0 70 71 9 ++ begin 1 5 ++ T 1 7 ++ C 0 .fork ++ T 0 1 ++ V 0 7 ++
      [.fork 0] ++ T 0 7 ++ C 0 (.create 80 81) ++ T 0 14 ++ begin 2 6 ++ C 2 .exit ++ T 2 11)
    (p := fun s => decide (CleanP again s (.step 2 (.go true 0)) ∧
      comparedTo (s.th 2) = some (.slot 0 0) ∧ startedBy s.g.tr = some false)) (by decide +kernel)
  exact ⟨s, hr, of_decide_eq_true hp⟩

/-- C91: these executions are those of the program that compares the threads themselves.

Missing: as above. -/
theorem C91_same_partial {pt : Tid → Nat} {s : S} :
    ReachP pt (CleanP pt) s ↔ ReachA (CleanP pt) s := reachP_iff

/-- C91: so fini-thread is called with the number and the data of the calling thread (C13), the exit
cleanup waits for all other threads (C14), and a broadcast reaches all other threads (C18).

Missing: as above. -/
theorem C91_callbacks_partial {pt : Tid → Nat} {s : S} (hs : ReachP pt (CleanP pt) s) :
    Always (fun old t e => ∀ k d src, e = .finiThread k d src → t ≠ mainOf old →
      (t, .initThreadRet k d) ∈ old ∨ (src = .winner ∧ ∀ k v, (t, .initThreadRet k v) ∉ old))
      s.g.tr ∧ Always finishedSpec s.g.tr ∧ Always brSpec s.g.tr := by
  rw [reachP_iff] at hs
  have hc := cleanP_clean hs
  exact ⟨C13_fini_after_init_partial hc, C14_all_finished_partial hc, C18_sent_partial hc⟩

/-- Thread 2, with the pthread_t of thread 1, which is gone, ends the process and gets its own
fini-thread; and a broadcast of thread 2 reaches thread 3. -/
example : (∃ s, ReachP again (CleanP again) s ∧ (1, .finiThread 1 5 .cleanup) ∈ s.g.tr ∧
      (2, .finiThread 2 6 .winner) ∈ s.g.tr ∧ (2, .finiProcess .normal 0) ∈ s.g.tr) ∧
    ∃ s, ReachP again (CleanP again) s ∧ (1, .finiThread 1 5 .cleanup) ∈ s.g.tr ∧
      (2, .kill (some 3) (some 10)) ∈ s.g.tr ∧ (2, .brRet 10 true) ∈ s.g.tr := by
  constructor
  · obtain ⟨s, hr, hp⟩ := exists_of_runP (pt := again) (A := CleanP again)
      (ls := toMain ++ create1 0 70 71 9 ++ begin 1 5 ++ T 1 7 ++ createN 0 80 81 10 ++ begin 2 6 ++
        C 2 .exit ++ T 2 8 ++ D 0 ++ T 0 3 ++ T 2 10)
      (p := fun s => decide ((1, .finiThread 1 5 .cleanup) ∈ s.g.tr ∧
        (2, .finiThread 2 6 .winner) ∈ s.g.tr ∧ (2, .finiProcess .normal 0) ∈ s.g.tr))
      (by decide +kernel)
    exact ⟨s, hr, of_decide_eq_true hp⟩
  · obtain ⟨s, hr, hp⟩ := exists_of_runP (pt := again) (A := CleanP again)
      (ls := toMain ++ create1 0 70 71 9 ++ begin 1 5 ++ T 1 7 ++ createN 0 80 81 10 ++ begin 2 6 ++
        createN 0 90 91 11 ++ begin 3 7 ++ C 2 (.broadcast 10) ++ T 2 6)
      (p := fun s => decide ((1, .finiThread 1 5 .cleanup) ∈ s.g.tr ∧
        (2, .kill (some 3) (some 10)) ∈ s.g.tr ∧ (2, .brRet 10 true) ∈ s.g.tr))
      (by decide +kernel)
    exact ⟨s, hr, of_decide_eq_true hp⟩

/-- C91 fails if a thread ends with monitor_block_shootdown in effect: its record stays on the list,
and when a new thread with the same pthread_t ends the process, it takes that record for its own
(pthread.c:584-585: the last match wins).  Fini-thread is called in it with the number and the data of
the thread that is gone, and not with its own. -/
theorem C91_blocked : ∃ s, ReachP again (fun s l => Clean s l ∧ EndsOnce s l ∧
      EndsRan s l ∧ OwnCalls s l ∧ OnePt again s) s ∧
    (1, .initThreadRet 1 5) ∈ s.g.tr ∧ s.th 1 = [] ∧ (2, .initThreadRet 2 6) ∈ s.g.tr ∧
    (2, .finiThread 1 5 .winner) ∈ s.g.tr ∧ (2, .finiProcess .normal 0) ∈ s.g.tr ∧
    ∀ u d src, (u, .finiThread 2 d src) ∉ s.g.tr := by
  obtain ⟨s, hr, hp⟩ := exists_of_runP (pt := again) (A := fun s l => Clean s l ∧
      EndsOnce s l ∧ EndsRan s l ∧ OwnCalls s l ∧ OnePt again s)
    (ls := toMain ++ create1 0 70 71 9 ++ begin 1 5 ++ C 1 (.block true) ++ T 1 4 ++
      createN 0 80 81 10 ++ begin 2 6 ++ C 2 .exit ++ T 2 11 ++ D 0 ++ T 0 3 ++ T 2 15)
    (p := fun s => decide ((1, .initThreadRet 1 5) ∈ s.g.tr ∧ s.th 1 = [] ∧
      (2, .initThreadRet 2 6) ∈ s.g.tr ∧ (2, .finiThread 1 5 .winner) ∈ s.g.tr ∧
      (2, .finiProcess .normal 0) ∈ s.g.tr) && s.g.tr.all (fun e => match e.2 with
        | .finiThread k _ _ => !decide (k = 2)
        | _ => true)) (by decide +kernel)
  simp only [Bool.and_eq_true] at hp
  obtain ⟨h1, h2, h3, h4, h5⟩ := of_decide_eq_true hp.1
  refine ⟨s, hr, h1, h2, h3, h4, h5, fun u d src hm => ?_⟩
  have := List.all_eq_true.1 hp.2 _ hm
  simp at this

/-- C91 fails if a thread is cancelled in its init-thread callback: the same; the client gets
fini-thread for a thread whose init-thread did not return. -/
theorem C91_early : ∃ s, ReachP again (fun s l => Clean s l ∧ EndsOnce s l ∧
      EndsFree s l ∧ OwnCalls s l ∧ OnePt again s) s ∧
    occursBy 1 Ev.isInitThreadRet s.g.tr = 0 ∧ s.th 1 = [] ∧ (2, .initThreadRet 2 6) ∈ s.g.tr ∧
    (2, .finiThread 1 9 .winner) ∈ s.g.tr ∧ (2, .finiProcess .normal 0) ∈ s.g.tr := by
  obtain ⟨s, hr, hp⟩ := exists_of_runP (pt := again) (A := fun s l => Clean s l ∧
      EndsOnce s l ∧ EndsFree s l ∧ OwnCalls s l ∧ OnePt again s)
    (ls := toMain ++ create1 0 70 71 9 ++ T 1 4 ++ U 1 ++ T 1 2 ++
      createN 0 80 81 10 ++ begin 2 6 ++ C 2 .exit ++ T 2 11 ++ D 0 ++ T 0 3 ++ T 2 15)
    (p := fun s => decide (occursBy 1 Ev.isInitThreadRet s.g.tr = 0 ∧ s.th 1 = [] ∧
      (2, .initThreadRet 2 6) ∈ s.g.tr ∧ (2, .finiThread 1 9 .winner) ∈ s.g.tr ∧
      (2, .finiProcess .normal 0) ∈ s.g.tr)) (by decide +kernel)
  exact ⟨s, hr, of_decide_eq_true hp⟩

/-- C91 fails if a thread calls pthread_exit in its fini-thread callback, which leaves its record on
the list, already finished: the thread that ends the process gets no fini-thread at all. -/
theorem C91_twice : ∃ s, ReachP again (fun s l => Clean s l ∧ EndsRan s l ∧
      EndsFree s l ∧ OwnCalls s l ∧ OnePt again s) s ∧
    (1, .finiThread 1 5 .cleanup) ∈ s.g.tr ∧ s.th 1 = [] ∧ (2, .initThreadRet 2 6) ∈ s.g.tr ∧
    occursBy 2 Ev.isFiniThread s.g.tr = 0 ∧ (2, .finiProcess .normal 0) ∈ s.g.tr := by
  obtain ⟨s, hr, hp⟩ := exists_of_runP (pt := again) (A := fun s l => Clean s l ∧
      EndsRan s l ∧ EndsFree s l ∧ OwnCalls s l ∧ OnePt again s)
    (ls := toMain ++ create1 0 70 71 9 ++ begin 1 5 ++ T 1 3 ++ C 1 .pthreadExit ++ T 1 2 ++
      createN 0 80 81 10 ++ begin 2 6 ++ C 2 .exit ++ T 2 11 ++ D 0 ++ T 0 3 ++ T 2 8)
    (p := fun s => decide ((1, .finiThread 1 5 .cleanup) ∈ s.g.tr ∧ s.th 1 = [] ∧
      (2, .initThreadRet 2 6) ∈ s.g.tr ∧ occursBy 2 Ev.isFiniThread s.g.tr = 0 ∧
      (2, .finiProcess .normal 0) ∈ s.g.tr)) (by decide +kernel)
  exact ⟨s, hr, of_decide_eq_true hp⟩

end Libmonitor.Proc
