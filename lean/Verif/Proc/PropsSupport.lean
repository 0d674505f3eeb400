import Verif.Proc.Support
import Verif.Proc.Asked
import Verif.Proc.Sched
/-!
# C75, C76: monitor_init_thread_support and monitor_is_threaded
-/

namespace Libmonitor.Proc

/-- C75: init-thread-support is called at most once, also counting the processes this one descends
from, and it has been called and has returned before the first thread is announced to the client.
Partial: `CleanSup` executions. -/
theorem C75_once_first_partial {s : S} (hs : ReachA CleanSup s) : Always announcedFirst s.g.tr :=
  (support_inv hs).1.2.2.2

/-- C75: in the process that was started normally the calls are its own. -/
theorem C75_own_partial {s : S} (hs : ReachA CleanSup s) (h0 : startedBy s.g.tr = none) {u : Tid} {c : Nat}
    (hm : (u, .preCreate c) ∈ s.g.tr) :
    occurs (fun e => decide (e = .support)) s.g.tr = 1 ∧ own s.g.tr = s.g.tr := by
  have h := C75_once_first_partial hs
  exact ⟨Nat.le_antisymm (announced_le h) (announced_ge h hm), own_all h0⟩

/-- Two threads are created, and init-thread-support was called for the first. -/
example : ∃ s, ReachA CleanSup s ∧ occurs (fun e => decide (e = .support)) s.g.tr = 1 ∧
    (0, .preCreate 0) ∈ s.g.tr ∧ (0, .preCreate 1) ∈ s.g.tr ∧ (1, .initThread 1 9) ∈ s.g.tr ∧
    startedBy s.g.tr = none := by
  obtain ⟨s, hr, hp⟩ := exists_of_runA (A := CleanSup) (ls := three)
    (p := fun s => decide (occurs (fun e => decide (e = .support)) s.g.tr = 1 ∧
      (0, .preCreate 0) ∈ s.g.tr ∧ (0, .preCreate 1) ∈ s.g.tr ∧ (1, .initThread 1 9) ∈ s.g.tr ∧
      startedBy s.g.tr = none)) (by decide +kernel)
  exact ⟨s, hr, of_decide_eq_true hp⟩

/-- C75 fails: a signal handler that creates a thread between the test of the flag and its
assignment (pthread.c:1114-1116) makes a second call. -/
theorem C75_twice : ∃ s, ReachA Clean s ∧ occurs (fun e => decide (e = .support)) s.g.tr = 2 := by
  obtain ⟨s, hr, hp⟩ := exists_of_runA (A := Clean)
    (ls := toMain ++ C 0 (.create 70 71) ++ T 0 6 ++ I 0 ++ C 0 (.create 80 81) ++ T 0 9 ++ V 0 9 ++
      T 0 7 ++ T 0 1 ++ T 0 2)
    (p := fun s => decide (occurs (fun e => decide (e = .support)) s.g.tr = 2)) (by decide +kernel)
  exact ⟨s, hr, of_decide_eq_true hp⟩

/-- C75 fails: ... between the assignment and the call, and its thread is announced first. -/
theorem C75_before : ∃ s, ReachA Clean s ∧ (0, .preCreate 1) ∈ s.g.tr ∧ (0, .support) ∉ s.g.tr := by
  obtain ⟨s, hr, hp⟩ := exists_of_runA (A := Clean)
    (ls := toMain ++ C 0 (.create 70 71) ++ T 0 7 ++ I 0 ++ C 0 (.create 80 81) ++ T 0 6)
    (p := fun s => decide ((0, .preCreate 1) ∈ s.g.tr ∧ (0, .support) ∉ s.g.tr)) (by decide +kernel)
  exact ⟨s, hr, of_decide_eq_true hp⟩

/-- C75 fails: the client creates a thread in init-thread-support; it is announced before the
function has returned. -/
theorem C75_nested : ∃ s, ReachA Clean s ∧ (0, .preCreate 1) ∈ s.g.tr ∧ (0, .supportRet) ∉ s.g.tr := by
  obtain ⟨s, hr, hp⟩ := exists_of_runA (A := Clean)
    (ls := toMain ++ C 0 (.create 70 71) ++ T 0 8 ++ C 0 (.create 80 81) ++ T 0 6)
    (p := fun s => decide ((0, .preCreate 1) ∈ s.g.tr ∧ (0, .supportRet) ∉ s.g.tr)) (by decide +kernel)
  exact ⟨s, hr, of_decide_eq_true hp⟩

/-- C75 fails: the main thread ends in init-thread-support and creates a thread in a destructor. -/
theorem C75_ended : ∃ s, ReachA Clean s ∧ (0, .preCreate 1) ∈ s.g.tr ∧ (0, .supportRet) ∉ s.g.tr ∧
    s.th 0 ≠ [] ∧ ∀ f ∈ s.th 0, f.sup = false := by
  obtain ⟨s, hr, hp⟩ := exists_of_runA (A := Clean)
    (ls := toMain ++ C 0 (.create 70 71) ++ T 0 8 ++ U 0 ++ C 0 (.create 80 81) ++ T 0 6)
    (p := fun s => decide ((0, .preCreate 1) ∈ s.g.tr ∧ (0, .supportRet) ∉ s.g.tr ∧
      s.th 0 ≠ [] ∧ ∀ f ∈ s.th 0, f.sup = false)) (by decide +kernel)
  exact ⟨s, hr, of_decide_eq_true hp⟩

/-- C75 fails for a child: after a fork in a program with threads the child announces its threads
without a call of init-thread-support of its own (monitor_reset_thread_list clears
monitor_has_used_threads but not monitor_thread_support_done). -/
theorem C75_child : ∃ s u c, ReachA CleanSup s ∧ startedBy s.g.tr = some false ∧
    (u, .preCreate c) ∈ own s.g.tr ∧ ∀ w, (w, .support) ∉ own s.g.tr := by
  obtain ⟨s, hr, hp⟩ := exists_of_runA (A := CleanSup)
    (ls := three ++ C 0 .fork ++ T 0 1 ++ V 0 9 ++ [.fork 0] ++ T 0 7 ++ C 0 (.create 90 91) ++ T 0 7)
    (p := fun s => decide (startedBy s.g.tr = some false ∧ (0, .preCreate 3) ∈ own s.g.tr ∧
      occurs (fun e => decide (e = .support)) (own s.g.tr) = 0)) (by decide +kernel)
  obtain ⟨h1, h2, h3⟩ := of_decide_eq_true hp
  refine ⟨s, 0, 3, hr, h1, h2, fun w hw => ?_⟩
  have := List.countP_eq_zero.1 h3 _ hw
  simp at this

/-- C75 fails for a child: a thread that the library ignores forks while the main thread has set the
flag and not yet called the function; in the child threads are announced and init-thread-support was
never called. -/
theorem C75_forked : ∃ s u c, ReachA Clean s ∧ (u, .preCreate c) ∈ own s.g.tr ∧
    ∀ w, (w, .support) ∉ s.g.tr := by
  obtain ⟨s, hr, hp⟩ := exists_of_runA (A := Clean)
    (ls := toMain ++ C 0 (.ignore true) ++ T 0 1 ++ C 0 (.create 70 71) ++ T 0 6 ++ C 0 (.ignore false) ++
      T 0 1 ++ T 1 1 ++ C 0 (.create 80 81) ++ T 0 6 ++ C 1 .fork ++ T 1 1 ++ V 1 9 ++ [.fork 1] ++ T 1 7 ++
      C 1 (.create 90 91) ++ T 1 7)
    (p := fun s => decide ((1, .preCreate 3) ∈ own s.g.tr ∧
      occurs (fun e => decide (e = .support)) s.g.tr = 0)) (by decide +kernel)
  obtain ⟨h1, h2⟩ := of_decide_eq_true hp
  refine ⟨s, 1, 3, hr, h1, fun w hw => ?_⟩
  have := List.countP_eq_zero.1 h2 _ hw
  simp at this

/-- C76: monitor_is_threaded returns 1 exactly when pthread_create was called in this process (or is
being called and has made the thread list).  Partial: `CleanAsk` executions. -/
theorem C76_answer_partial {s : S} (hs : ReachA CleanAsk s) {t : Tid} {rest : List Frame}
    (ht : s.th t = .qThr :: rest) (hd : s.g.dead = false) (ok : Bool) (v : Nat) :
    ∃ s' b, next s (.step t (.go ok v)) = some s' ∧ s'.g.tr = (t, .gotThreaded b) :: s.g.tr ∧
      (b = true ↔ creating s) := by
  have hc := clean_of_ask hs
  have hb : born s.g.tr = false := by
    cases e : born s.g.tr with
    | false => rfl
    | true => have := (birth_step hc ht e).2.1; cases this
  have hn : next s (.step t (.go ok v)) =
      some (applyRes s t rest (s.g.emit t (.gotThreaded s.g.hasUsed), .go [], none)) := by
    simp [next, step, hd, ht, fstep, cont]
  exact ⟨_, s.g.hasUsed, hn, rfl, used_iff_creating hs hb⟩

/-- C76: when the process has a second thread the answer is 1.  Partial: `Clean` executions. -/
theorem C76_second_partial {s : S} (hs : ReachA Clean s) {t u : Tid} {rest : List Frame}
    (ht : s.th t = .qThr :: rest) (hd : s.g.dead = false) (hu : s.th u ≠ []) (hne : u ≠ t) (ok : Bool)
    (v : Nat) :
    ∃ s', next s (.step t (.go ok v)) = some s' ∧ s'.g.tr = (t, .gotThreaded true) :: s.g.tr := by
  have hused : s.g.hasUsed = true := by
    by_cases e : t = mainOf s.g.tr
    · cases hl : s.th u with
      | nil => exact absurd hl hu
      | cons f r =>
        exact (((base_inv hs).2 u f (by rw [hl]; exact List.mem_cons_self)).1
          (by rw [← e]; exact hne)).1
    · exact (((base_inv hs).2 t _ (by rw [ht]; exact List.mem_cons_self)).1 e).1
  have hn : next s (.step t (.go ok v)) =
      some (applyRes s t rest (s.g.emit t (.gotThreaded true), .go [], none)) := by
    simp [next, step, hd, ht, fstep, cont, hused]
  exact ⟨_, hn, rfl⟩

/-- Before the first thread, with two threads, in a child before and after it makes a thread. -/
example : ∃ s, ReachA CleanAsk s ∧ s.g.tr.filter (fun e => match e.2 with
      | .gotThreaded _ | .forked _ => true | _ => false) =
    [(0, .gotThreaded true), (0, .gotThreaded false), (0, .forked false), (0, .gotThreaded true),
     (0, .gotThreaded false)] := by
  obtain ⟨s, hr, hp⟩ := exists_of_runA (A := CleanAsk)
    (ls := toMain ++ C 0 .threaded ++ T 0 1 ++ create1 0 70 71 9 ++ C 0 .threaded ++ T 0 1 ++
      C 0 .fork ++ T 0 1 ++ V 0 9 ++ [.fork 0] ++ T 0 7 ++ C 0 .threaded ++ T 0 1 ++
      C 0 (.create 90 91) ++ T 0 7 ++ V 0 9 ++ T 0 7 ++ C 0 .threaded ++ T 0 1)
    (p := fun s => decide (s.g.tr.filter (fun e => match e.2 with
      | .gotThreaded _ | .forked _ => true | _ => false) =
      [(0, .gotThreaded true), (0, .gotThreaded false), (0, .forked false), (0, .gotThreaded true),
       (0, .gotThreaded false)])) (by decide +kernel)
  exact ⟨s, hr, of_decide_eq_true hp⟩

/-- C76 fails: a signal handler in a new child asks before the thread list is reset, and is told
that there are threads. -/
theorem C76_inherited : ∃ s, Reach s ∧ (0, .gotThreaded true) ∈ own s.g.tr ∧
    ∀ u c st ar, (u, .createCall c st ar) ∉ own s.g.tr := by
  obtain ⟨s, hr, hp⟩ := exists_of_run
    (ls := toMain ++ create1 0 70 71 9 ++ C 0 .fork ++ T 0 1 ++ V 0 9 ++ [.fork 0] ++ I 0 ++
      C 0 .threaded ++ T 0 1)
    (p := fun s => decide (own s.g.tr = [(0, .gotThreaded true)])) (by decide +kernel)
  have := of_decide_eq_true hp
  refine ⟨s, hr, by rw [this]; exact List.mem_cons_self, fun u c st ar h => ?_⟩
  rw [this] at h; simp at h

/-- C76 fails: a signal handler forks inside pthread_create, and the child goes on with the call; it
creates a thread, and the answer is that there are none. -/
theorem C76_lost : ∃ s, Reach s ∧ s.g.tr.head? = some (0, .gotThreaded false) ∧
    (0, .createCall 1 70 71) ∈ own s.g.tr ∧ s.th 1 ≠ [] ∧ startedBy s.g.tr = some false := by
  obtain ⟨s, hr, hp⟩ := exists_of_run
    (ls := toMain ++ C 0 (.create 70 71) ++ T 0 2 ++ I 0 ++ C 0 .fork ++ T 0 1 ++ V 0 9 ++ [.fork 0] ++
      T 0 8 ++ T 0 8 ++ V 0 9 ++ T 0 7 ++ C 0 .threaded ++ T 0 1)
    (p := fun s => decide (s.g.tr.head? = some (0, .gotThreaded false) ∧
      (0, .createCall 1 70 71) ∈ own s.g.tr ∧ s.th 1 ≠ [] ∧ startedBy s.g.tr = some false)) (by decide +kernel)
  exact ⟨s, hr, of_decide_eq_true hp⟩

end Libmonitor.Proc
