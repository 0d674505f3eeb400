import Verif.Proc.Nest
import Verif.Proc.Sched
/-!
# C87: callbacks are properly nested; C88: callbacks run outside the lock
-/

namespace Libmonitor.Proc

/-- C87: in every execution, what ends in a thread (a callback, a call of pthread_create, fork or
monitor_broadcast_signal) is the innermost of what this thread has begun and not ended, also with
signal handlers, with calls made inside callbacks, in threads that are ended in the middle, and in
the child of a fork. -/
theorem C87_nested {s : S} (hs : Reach s) : Always nestSpec s.g.tr :=
  (nest_inv (tidy := False) (fun h => h.elim) hs).1

/-- The client forks in its pre-create callback, and a handler comes in pre-fork and broadcasts a
signal. -/
def forkInside : List Lbl :=
  toMain ++ C 0 (.create 70 71) ++ T 0 10 ++ C 0 .fork ++ T 0 1 ++ I 0 ++ C 0 (.broadcast 5) ++ T 0 1

example : ∃ s, Reach s ∧ opened s.g.tr 0 =
    [.broadcast 5, .preFork 1, .fork 1, .preCreate 0, .create 0] := by
  obtain ⟨s, h, hp⟩ := exists_of_run (ls := forkInside)
    (p := fun s => decide (opened s.g.tr 0 =
      [.broadcast 5, .preFork 1, .fork 1, .preCreate 0, .create 0])) (by decide +kernel)
  exact ⟨s, h, of_decide_eq_true hp⟩

/-- ... and in the child everything ends, in this order. -/
example : ∃ s, Reach s ∧ startedBy s.g.tr = some false ∧ opened s.g.tr 0 = [] ∧
    s.th 0 = [.mainApp] ∧
    ((s.g.tr.filter (fun x => x.2.ends ≠ [])).map (fun x => x.2)).take 6 =
      [.createRet 0, .preCreateRet 0 9, .forkRet 1 0, .initProcessRet 0, .preForkRet 1 7,
       .brRet 5 true] := by
  obtain ⟨s, h, hp⟩ := exists_of_run (ls := forkInside ++ T 0 3 ++ V 0 7 ++ [.fork 0] ++ T 0 7 ++ V 0 9 ++ T 0 7)
    (p := fun s => decide (startedBy s.g.tr = some false ∧ opened s.g.tr 0 = [] ∧
      s.th 0 = [.mainApp] ∧
      ((s.g.tr.filter (fun x => x.2.ends ≠ [])).map (fun x => x.2)).take 6 =
        [.createRet 0, .preCreateRet 0 9, .forkRet 1 0, .initProcessRet 0, .preForkRet 1 7,
         .brRet 5 true])) (by decide +kernel)
  exact ⟨s, h, of_decide_eq_true hp⟩

/-- C87, everything ends: if no thread is ended inside a call or callback, then a thread in which
only the application's own code is active, and a thread that is gone, has nothing open. -/
theorem C87_all_ended {s : S} (hs : ReachA EndsOutside s) {t : Tid}
    (ht : ∀ f ∈ s.th t, f.ofApp = true) : opened s.g.tr t = [] := by
  obtain ⟨ab, h, ho⟩ := (nest_inv (tidy := True) (fun _ _ _ h => h) hs).2 t
  rw [ho, h trivial, spans_zero (fun f hf => ?_)]
  · rfl
  · have := ht f hf
    cases f <;> first | rfl | cases this

/-- Thread 1 is ended by pthread_exit, thread 2 returns from its start routine. -/
example : ∃ s, ReachA EndsOutside s ∧ (1, .finiThreadRet 1) ∈ s.g.tr ∧ s.th 1 = [] ∧
    s.th 2 = [] ∧ opened s.g.tr 1 = [] ∧ opened s.g.tr 0 = [] := by
  obtain ⟨s, h, hp⟩ := exists_of_runA (A := EndsOutside)
    (ls := three ++ C 1 .pthreadExit ++ T 1 7 ++ T 2 7)
    (p := fun s => decide ((1, .finiThreadRet 1) ∈ s.g.tr ∧ s.th 1 = [] ∧
      s.th 2 = [] ∧ opened s.g.tr 1 = [] ∧ opened s.g.tr 0 = [])) (by decide +kernel)
  exact ⟨s, h, of_decide_eq_true hp⟩

/-- A thread that is cancelled in a callback leaves it open for ever. -/
theorem C87_cancelled : ∃ s, Reach s ∧ s.th 1 = [] ∧
    opened s.g.tr 1 = [.preCreate 1, .create 1] := by
  obtain ⟨s, h, hp⟩ := exists_of_run
    (ls := toMain ++ create1 0 70 71 9 ++ begin 1 5 ++ C 1 (.create 80 81) ++ T 1 6 ++ U 1 ++ T 1 6)
    (p := fun s => decide (s.th 1 = [] ∧ opened s.g.tr 1 = [.preCreate 1, .create 1]))
    (by decide +kernel)
  exact ⟨s, h, of_decide_eq_true hp⟩

/-- C88: in every execution, a thread that is inside the list lock is at the place that holds it,
or in a signal handler that came there: whatever else it runs, it runs on top of a handler. -/
theorem C88_unlocked {s : S} (hs : Reach s) {t : Tid} {f h : Frame} {pre post : List Frame}
    (ht : s.th t = f :: pre ++ h :: post) (hh : h.inLock = true) :
    ∃ a ∈ f :: pre, a.handler = true := by
  have := above_inv (q := True) (fun h => absurd trivial h) hs t
  rw [ht] at this
  rcases above_mem hh this with e | h
  · cases e
  · exact h.1

/-- A handler that comes inside the lock makes a thread: the client's pre-create callback runs in
a thread that holds the lock.  This is why clients cannot rely on `C88_client_code` without its
condition. -/
theorem C88_in_handler : ∃ s, Reach s ∧ s.g.lock = true ∧
    s.th 0 = [.pcPre 1 .main 80 81, .app, .mk1 0 .main 70 71 9, .mainApp] := by
  obtain ⟨s, h, hp⟩ := exists_of_run
    (ls := toMain ++ C 0 (.create 70 71) ++ T 0 10 ++ V 0 9 ++ T 0 1 ++ I 0 ++
      C 0 (.create 80 81) ++ T 0 6)
    (p := fun s => decide (s.g.lock = true ∧
      s.th 0 = [.pcPre 1 .main 80 81, .app, .mk1 0 .main 70 71 9, .mainApp])) (by decide +kernel)
  exact ⟨s, h, of_decide_eq_true hp⟩

/-- C88, for clients: if no signal handler begins inside the list lock, then whenever code of
client or application runs (every callback, main, a start routine), its thread does not hold the
lock. -/
theorem C88_client_code {s : S} {o : Option Tid} (hs : ReachO UnlockedHandlers s o) {t : Tid}
    {f : Frame} {rest : List Frame} (ht : s.th t = f :: rest) (hf : f.foreign = true) :
    o ≠ some t := by
  intro e
  obtain ⟨-, -, ⟨h, r, hh, hi⟩ | he⟩ := heldBy_inv hs t e
  · rw [ht] at hh; cases hh; rw [foreign_inLock hf] at hi; cases hi
  · rw [ht] at he; cases he

/-- C88, for the library: then no thread waits for the lock that it holds itself. -/
theorem C88_not_itself {s : S} {o : Option Tid} (hs : ReachO UnlockedHandlers s o) {t : Tid}
    (ht : top s t Frame.wantsLock) : o ≠ some t := by
  intro e
  obtain ⟨f, hf, hw⟩ := ht
  obtain ⟨-, -, ⟨h, r, hh, hi⟩ | he⟩ := heldBy_inv hs t e
  · rw [hh] at hf
    simp only [List.head?_cons, Option.mem_def, Option.some.injEq] at hf
    subst hf
    cases h <;> first | cases hi; done | cases hw
  · rw [he] at hf; cases hf

/-- Thread 1 holds the lock, main makes a thread in a handler and waits for it, thread 2 runs the
application's code. -/
example : ∃ s o, ReachO UnlockedHandlers s o ∧ o = some 1 ∧
    s.th 0 = [.mk0 2 .main 90 91 0, .app, .mainApp] ∧ s.th 2 = [.btApp (.slot 0 1)] := by
  obtain ⟨s, o, h, hp⟩ := exists_of_runO (A := UnlockedHandlers)
    (ls := three ++ I 0 ++ C 0 (.create 90 91) ++ T 0 7 ++ T 1 5)
    (p := fun s o => decide (o = some 1 ∧
      s.th 0 = [.mk0 2 .main 90 91 0, .app, .mainApp] ∧ s.th 2 = [.btApp (.slot 0 1)]))
    (by decide +kernel)
  exact ⟨s, o, h, of_decide_eq_true hp⟩

end Libmonitor.Proc
