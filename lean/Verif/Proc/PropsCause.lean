import Verif.Proc.Cause
import Verif.Proc.Sched
/-!
# C92: exit callbacks and the end of the process are what was asked for
-/

namespace Libmonitor.Proc

/-- C92: in every execution, a thread calls monitor_begin_process_exit and monitor_fini_process with
a reason at most as often as it has asked for an exit with that reason: by the end of main,
pthread_exit, exit or _exit (normal), by an exec of a file that looks executable, by a signal. -/
theorem C92_reasons {s : S} {ws : List (Tid × Wish)} (hs : ReachWish (fun _ _ => True) s ws) (t : Tid)
    (how : How) :
    beginTold s.g.tr t how ≤ reasonAsked true ws t how ∧
      finiTold s.g.tr t how ≤ reasonAsked true ws t how := by
  have h := fun k => cause_inv (any := true) (fun _ _ _ _ => by simp) hs t k
  constructor
  · rw [begin_count, (reason_count true ws t how).1]
    exact Nat.le_trans (Nat.le_add_right _ _) (h _)
  · rw [fini_count, (reason_count true ws t how).2]
    exact Nat.le_trans (Nat.le_add_right _ _) (h _)

/-- C92: pthread_exit is a reason in the initial thread only (`Clean` executions). -/
theorem C92_initial_partial {s : S} {ws : List (Tid × Wish)} (hs : ReachWish Clean s ws) (t : Tid)
    (how : How) :
    beginTold s.g.tr t how ≤ reasonAsked false ws t how ∧
      finiTold s.g.tr t how ≤ reasonAsked false ws t how := by
  have h := fun k => cause_inv (any := false)
    (fun hr ht hn hi => by simpa using px_main hr ht hn hi) hs t k
  constructor
  · rw [begin_count, (reason_count false ws t how).1]
    exact Nat.le_trans (Nat.le_add_right _ _) (h _)
  · rw [fini_count, (reason_count false ws t how).2]
    exact Nat.le_trans (Nat.le_add_right _ _) (h _)

/-- C92: in every execution, a thread ends the process (or tries to, with exec) at most as often as
it has asked for just this: exit becomes exit, _exit becomes _exit, exec becomes exec, a signal
becomes a signal. -/
theorem C92_ends {s : S} {ws : List (Tid × Wish)} (hs : ReachWish (fun _ _ => True) s ws) (t : Tid)
    (e : End) : endDone s.g.tr t e ≤ endAsked ws t e := by
  have h := cause_inv (any := true) (fun _ _ _ _ => by simp) hs t (.ends e)
  rw [end_count, wish_count true]
  exact Nat.le_trans (Nat.le_add_right _ _) h

/-- C92: if nobody has asked for an exit with exit callbacks, there are none. -/
theorem C92_none {s : S} {ws : List (Tid × Wish)} (hs : ReachWish (fun _ _ => True) s ws)
    (hw : ∀ x ∈ ws, x.2.reason true = none) :
    ∀ x ∈ s.g.tr, (∀ how, x.2 ≠ .beginExit how) ∧ ∀ how d, x.2 ≠ .finiProcess how d := by
  intro x hx
  have z : ∀ how, reasonAsked true ws x.1 how = 0 := by
    intro how
    unfold reasonAsked
    rw [List.countP_eq_zero]
    intro y hy
    simp [hw y hy]
  obtain ⟨t, e⟩ := x
  constructor
  · intro how he
    have h := (C92_reasons hs t how).1
    rw [z how] at h
    have : 0 < beginTold s.g.tr t how := by
      unfold beginTold
      exact List.countP_pos_iff.2 ⟨_, hx, by simpa using he⟩
    omega
  · intro how d he
    have h := (C92_reasons hs t how).2
    rw [z how] at h
    have : 0 < finiTold s.g.tr t how := by
      unfold finiTold
      exact List.countP_pos_iff.2 ⟨_, hx, by simp only at he; subst he; simp⟩
    omega

/-- Thread 1 exits and delivers the callbacks, main exits, too, and waits. -/
example : ∃ s ws, ReachWish Clean s ws ∧ reasonAsked false ws 1 .normal = 1 ∧
    beginTold s.g.tr 1 .normal = 1 ∧ finiTold s.g.tr 1 .normal = 1 ∧ endDone s.g.tr 1 .exit = 1 ∧
    endAsked ws 0 .exit = 1 ∧ beginTold s.g.tr 0 .normal = 0 := by
  obtain ⟨s, ws, h, hp⟩ := exists_of_runWish (A := Clean) (ls := threeExit)
    (p := fun s ws => decide (reasonAsked false ws 1 .normal = 1 ∧ beginTold s.g.tr 1 .normal = 1 ∧
      finiTold s.g.tr 1 .normal = 1 ∧ endDone s.g.tr 1 .exit = 1 ∧ endAsked ws 0 .exit = 1 ∧
      beginTold s.g.tr 0 .normal = 0)) (by decide +kernel)
  exact ⟨s, ws, h, of_decide_eq_true hp⟩

/-- An exec that fails, then a signal. -/
example : ∃ s ws, ReachWish (fun _ _ => True) s ws ∧ s.g.dead = true ∧
    endDone s.g.tr 0 (.exec true) = 1 ∧ endDone s.g.tr 0 .raise = 1 ∧
    finiTold s.g.tr 0 .exec = 1 ∧ reasonAsked true ws 0 .signal = 1 ∧
    finiTold s.g.tr 0 .signal = 0 := by
  obtain ⟨s, ws, h, hp⟩ := exists_of_runWish (A := fun _ _ => True)
    (ls := toMain ++ C 0 (.exec true) ++ T 0 11 ++ F 0 ++ C 0 (.fatal false) ++ T 0 6)
    (p := fun s ws => decide (s.g.dead = true ∧ endDone s.g.tr 0 (.exec true) = 1 ∧
      endDone s.g.tr 0 .raise = 1 ∧ finiTold s.g.tr 0 .exec = 1 ∧
      reasonAsked true ws 0 .signal = 1 ∧ finiTold s.g.tr 0 .signal = 0)) (by decide +kernel)
  exact ⟨s, ws, h, of_decide_eq_true hp⟩

/-- Thread 1 calls pthread_exit: no exit callbacks. -/
example : ∃ s ws, ReachWish Clean s ws ∧ (1, .leaves false) ∈ ws ∧ s.th 1 = [] ∧
    (∀ x ∈ ws, x.2.reason false = none) ∧ (1, .finiThreadRet 1) ∈ s.g.tr := by
  obtain ⟨s, ws, h, hp⟩ := exists_of_runWish (A := Clean) (ls := three ++ C 1 .pthreadExit ++ T 1 7)
    (p := fun s ws => decide ((1, .leaves false) ∈ ws ∧ s.th 1 = [] ∧
      (∀ x ∈ ws, x.2.reason false = none) ∧ (1, .finiThreadRet 1) ∈ s.g.tr)) (by decide +kernel)
  exact ⟨s, ws, h, of_decide_eq_true hp⟩

/-- The converse is false: a process that ends inside the C library (err, errx, or a fatal error of
libmonitor itself, MONITOR_ERROR) ends without exit callbacks; threads that have got init-thread do
not get fini-thread.  Only monitor_fini_library is called. -/
theorem C92_err : ∃ s ws, ReachWish Clean s ws ∧ s.g.dead = true ∧ (1, .call .err) ∈ ws ∧
    (∀ x ∈ ws, x.2.reason true = none) ∧ endDone s.g.tr 1 .libcExit = 1 ∧
    (1, .finiLibrary) ∈ s.g.tr ∧ (2, .initThreadRet 2 6) ∈ s.g.tr ∧
    ∀ x ∈ s.g.tr, ∀ tid d b, x.2 ≠ .finiThread tid d b := by
  obtain ⟨s, ws, h, hp⟩ := exists_of_runWish (A := Clean) (ls := three ++ C 1 .err ++ T 1 5)
    (p := fun s ws => decide (s.g.dead = true ∧ (1, .call .err) ∈ ws ∧
      (∀ x ∈ ws, x.2.reason true = none) ∧ endDone s.g.tr 1 .libcExit = 1 ∧
      (1, .finiLibrary) ∈ s.g.tr ∧ (2, .initThreadRet 2 6) ∈ s.g.tr ∧
      ∀ x ∈ s.g.tr, (match x.2 with | .finiThread .. => false | _ => true) = true))
    (by decide +kernel)
  obtain ⟨h1, h2, h3, h4, h5, h6, h7⟩ := of_decide_eq_true hp
  refine ⟨s, ws, h, h1, h2, h3, h4, h5, h6, fun x hx tid d b e => ?_⟩
  have := h7 x hx
  rw [e] at this
  exact absurd this (by simp)

/-- And "the process ends after fini-process" is false for pthread_exit in the initial thread,
although the comment in the source (pthread.c:1179-1181) says that it ends the process: fini-process
has been called, the initial thread is gone, and thread 2 goes on in its start routine, in which it
forks. -/
theorem C92_goes_on : ∃ s ws, ReachWish Clean s ws ∧ (0, .leaves true) ∈ ws ∧ s.g.dead = false ∧
    s.th 0 = [] ∧ (∃ k old, s.g.tr = (2, .preFork k) :: old ∧
      (0, .finiProcessRet .normal) ∈ old ∧ (2, .finiThreadRet 2) ∈ old) := by
  obtain ⟨s, ws, h, hp⟩ := exists_of_runWish (A := Clean)
    (ls := three ++ C 0 .pthreadExit ++ T 0 12 ++ D 1 ++ T 1 3 ++ D 2 ++ T 2 3 ++
      F 0 ++ T 0 9 ++ C 2 .fork ++ T 2 1)
    (p := fun s ws => decide ((0, .leaves true) ∈ ws ∧ s.g.dead = false ∧ s.th 0 = [] ∧
      s.g.tr.head? = some (2, .preFork 2) ∧ (0, .finiProcessRet .normal) ∈ s.g.tr.tail ∧
      (2, .finiThreadRet 2) ∈ s.g.tr.tail)) (by decide +kernel)
  obtain ⟨h1, h2, h3, h4, h5, h6⟩ := of_decide_eq_true hp
  refine ⟨s, ws, h, h1, h2, h3, 2, s.g.tr.tail, ?_, h5, h6⟩
  cases hr : s.g.tr with
  | nil => rw [hr] at h4; cases h4
  | cons x l => rw [hr] at h4; injection h4 with h4; rw [h4]; rfl

end Libmonitor.Proc
