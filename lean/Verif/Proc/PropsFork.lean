import Verif.Proc.ChildExit
import Verif.Proc.Sched
/-!
# C08, C36: fork
-/

namespace Libmonitor.Proc

/-- C36, "exactly once": in a line of descent, pre-fork and post-fork are called at most once for
each call of fork, and the call returns at most once in each process (`C36_parent` and
`C36_child` say "at least once"). -/
theorem C36_callbacks_once {s : S} (hs : Reach s) (c : Nat) :
    occurs (Ev.isPreFork c) s.g.tr ≤ 1 ∧ occurs (Ev.isPostFork c) s.g.tr ≤ 1 ∧
      occurs (Ev.isForkRet c) s.g.tr ≤ 1 := by
  have key : ∀ {tok : Frame → Nat} {used : G → Nat},
      OneTok tok (fun g => decide (c < g.nextCall)) used s → used s.g ≤ 1 := by
    rintro tok used ⟨h0, h1⟩
    cases hc : decide (c < s.g.nextCall) with
    | false => have := (h0 hc).1; omega
    | true => obtain ⟨w, _, h⟩ := h1 hc; omega
  exact ⟨key (oneTok_preFork c hs), key (oneTok_postFork c hs), key (oneTok_forkRet c hs)⟩

/-- C36, the caller's side: the real fork is called only after pre-fork has been called and
has returned; when fork returns a process id or -1, post-fork has been called, after the real fork,
with that result and with the value pre-fork had returned. -/
theorem C36_parent {s : S} (hs : Reach s) :
    Always (fun old t e =>
      (∀ c d, e = .preForkRet c d → (t, .preFork c) ∈ old) ∧
      (∀ c ret, e = .osFork c ret → ret ≠ 0 ∧ ∃ d, (t, .preForkRet c d) ∈ old) ∧
      (∀ c ret d, e = .postFork c ret d →
        ∃ a b, old = a ++ (t, .osFork c ret) :: b ∧ (t, .preForkRet c d) ∈ b) ∧
      (∀ c ret, e = .forkRet c ret → ret ≠ 0 → ∃ d, (t, .postFork c ret d) ∈ old)) s.g.tr := by
  have h := (forkOrder_inv hs).1
  revert h
  generalize s.g.tr = tr
  intro h
  induction tr with
  | nil => trivial
  | cons e tr ih =>
    obtain ⟨t, e⟩ := e
    refine ⟨⟨?_, ?_, ?_, ?_⟩, ih h.2⟩
    · rintro c d rfl; exact h.1
    · rintro c ret rfl; exact h.1
    · rintro c ret d rfl; exact h.1
    · rintro c ret rfl; exact h.1

/-- C36, the child's side: when fork returns 0, post-fork has not been called for this call but
init-process has, with pre-fork's value; nor is post-fork called after fork has returned. -/
theorem C36_child {s : S} (hs : Reach s) :
    Always (fun old t e =>
      (∀ c, e = .forkRet c 0 → occurs (Ev.isPostFork c) old = 0 ∧ childBegun t c old) ∧
      (∀ c ret d, e = .postFork c ret d → occurs (Ev.isForkRet c) old = 0)) s.g.tr := by
  have h := (forkExcl_inv hs).1
  have h' := (child_inv hs).1
  revert h h'
  generalize s.g.tr = tr
  intro h h'
  induction tr with
  | nil => trivial
  | cons e tr ih =>
    obtain ⟨t, e⟩ := e
    refine ⟨⟨?_, ?_⟩, ih h.2 h'.2⟩
    · rintro c rfl; exact ⟨h.1 rfl, h'.1 c rfl⟩
    · rintro c ret d rfl; exact h.1

/-- C36, monitor_real_fork: a call of it goes through the caller and through the child without
calling the client: the caller's history does not change, the child's gets the marks of its birth
and of the reset. -/
theorem C36_real_fork {s : S} {t : Nat} {rest : List Frame} (ok : Bool) (v : Nat)
    (hd : s.g.dead = false) (ht : s.th t = Api.realFork.frames ++ rest) :
    (∃ s', next s (.step t (.go ok v)) = some s' ∧ s'.th t = rest ∧ s'.g.tr = s.g.tr) ∧
    (∃ s' s'' d, next s (.fork t) = some s' ∧ next s' (.step t (.go ok v)) = some s'' ∧
      s''.th t = rest ∧ s''.g.tr = (t, .realReset d) :: (t, .forked true) :: s.g.tr) := by
  have ht : s.th t = .rf :: rest := ht
  refine ⟨⟨{ s with th := setTh s.th t rest }, ?_, setTh_self _ _ _, rfl⟩, ?_⟩
  · simp [next, step, hd, ht, fstep, cont, applyRes]
  · refine ⟨{ g := s.g.emit t (.forked true), th := setTh (fun _ => []) t (.rfReset :: rest) },
      { g := (resetList (s.g.emit t (.forked true)) t).emit t
          (.realReset (resetList (s.g.emit t (.forked true)) t).main.data),
        th := setTh (setTh (fun _ => []) t (.rfReset :: rest)) t rest },
      (resetList (s.g.emit t (.forked true)) t).main.data, ?_, ?_, setTh_self _ _ _, ?_⟩
    · simp [next, child, hd, ht]
    · simp [next, step, G.emit, hd, fstep, cont, applyRes, setTh]
    · simp [G.emit]

/-- Main forks twice; the first call fails, the child of the second one forks by
monitor_real_fork. -/
example : ∃ s, Reach s ∧ (0, .postFork 0 (-1) 7) ∈ s.g.tr ∧ (0, .forkRet 1 0) ∈ s.g.tr ∧
    (0, .initProcess 9) ∈ own (s.g.tr.drop 2) ∧ startedBy s.g.tr = some true ∧
    occurs (Ev.isPostFork 1) s.g.tr = 0 := by
  obtain ⟨s, hr, hp⟩ := exists_of_run
    (ls := toMain ++ C 0 .fork ++ T 0 1 ++ V 0 7 ++ F 0 ++ T 0 2 ++ C 0 .fork ++ T 0 1 ++ V 0 9 ++
      [.fork 0] ++ T 0 7 ++ C 0 .realFork ++ [.fork 0] ++ T 0 1)
    (p := fun s => decide ((0, .postFork 0 (-1) 7) ∈ s.g.tr ∧ (0, .forkRet 1 0) ∈ s.g.tr ∧
      (0, .initProcess 9) ∈ own (s.g.tr.drop 2) ∧ startedBy s.g.tr = some true ∧
      occurs (Ev.isPostFork 1) s.g.tr = 0)) (by decide +kernel)
  exact ⟨s, hr, of_decide_eq_true hp⟩

/-- C08, first half: when fork returns in the child, init-process has been called in the
child, with the value pre-fork had returned in the parent, and has returned. -/
theorem C08_child_init_process {s : S} (hs : Reach s) :
    Always (fun old t e => ∀ c, e = .forkRet c 0 → childBegun t c old) s.g.tr :=
  (child_inv hs).1

/-- C08, second half, in executions in which no thread forks once an exit function has been
entered: a process that ends through the exit functions has had a fini-process call of its own
that has returned (or a repeat winner of its own, see C03).  Missing: children made during exit;
the claim fails for them (`C08_child_blocked`, `C08_child_without_fini`). -/
theorem C08_child_exit_partial {s : S} (hs : ReachA CalmFork s) :
    Always (fun old _ e => e.isHookedExit = true →
      (∃ t how, (t, .finiProcessRet how) ∈ own old) ∨
      (∃ t how, (t, .resume how .again) ∈ own old)) s.g.tr :=
  (ownExit_inv hs).1.2

/-- ... and a thread that waits for another one to deliver the exit callbacks waits for a
thread of its own process, which has called begin-process-exit or is about to.  (Here also the
winner must not end itself from a signal handler before that, see `C08_winner_ends`.) -/
theorem C08_child_not_blocked_partial {s : S} (hs : ReachA CalmExit s) {t : Nat} {how : How}
    (hw : .epWait how ∈ s.th t) :
    (∃ u how', (u, .beginExit how') ∈ own s.g.tr) ∨ ∃ u how' tn, .ep2 how' tn ∈ s.th u := by
  have hc := (late_inv hs).2 t _ hw rfl
  rcases winner_inv hs hc with h | ⟨u, f, hf, he⟩
  · exact Or.inl h
  · cases f <;> first | (simp [Frame.isEp2] at he; done) | exact Or.inr ⟨u, _, _, hf⟩

/-- Thread 1 is delivering the exit callbacks when thread 2 forks: the child inherits the taken
cookie, and as the flag `fini process done` has been cleared in it, its exit waits forever.  The child
consists of the waiting thread only and no outcome lets it go on. -/
theorem C08_child_blocked : ∃ s, Reach s ∧ startedBy s.g.tr = some false ∧
    (2, .forkRet 2 0) ∈ s.g.tr ∧ occurs Ev.isBeginExit (own s.g.tr) = 0 ∧
    (∀ u, u ≠ 2 → s.th u = []) ∧ (∀ ok v, next s (.step 2 (.go ok v)) = none) := by
  obtain ⟨s, hr, hp⟩ := exists_of_run
    (ls := three ++ C 1 .exit ++ T 1 3 ++ C 2 .fork ++ T 2 1 ++ V 2 9 ++ [.fork 2] ++ T 2 7 ++
      C 2 .exit ++ T 2 2)
    (p := fun s => decide (startedBy s.g.tr = some false ∧ (2, .forkRet 2 0) ∈ s.g.tr ∧
      occurs Ev.isBeginExit (own s.g.tr) = 0 ∧ s.g.nextTid = 3 ∧ s.th 0 = [] ∧ s.th 1 = [] ∧
      (s.th 2).head? = some (.epWait .normal) ∧ s.g.finiProcDone = false)) (by decide +kernel)
  obtain ⟨h1, h2, h3, h4, h5, h6, h7, h8⟩ := of_decide_eq_true hp
  refine ⟨s, hr, h1, h2, h3, fun u hu => ?_, fun ok v => ?_⟩
  · by_cases e : s.g.nextTid ≤ u
    · exact fresh_inv hr u e
    · have : u = 0 ∨ u = 1 := by omega
      rcases this with rfl | rfl
      · exact h5
      · exact h6
  · simp only [next, step]
    split
    · rfl
    · split
      · rfl
      · rename_i f rest ht
        rw [ht] at h7
        injection h7 with h7; subst h7
        simp [fstep, h8]

/-- Main forks from an atexit handler, after the exit callbacks have run: the child inherits
main's mark as the winner and exits without exit callbacks of its own. -/
theorem C08_child_without_fini : ∃ s, Reach s ∧ startedBy s.g.tr = some false ∧
    (0, .realExit true) ∈ own s.g.tr ∧ (0, .initProcess 9) ∈ own s.g.tr ∧
    occurs Ev.isBeginExit (own s.g.tr) = 0 ∧ occurs Ev.isFiniProcess (own s.g.tr) = 0 := by
  obtain ⟨s, hr, hp⟩ := exists_of_run
    (ls := toMain ++ C 0 .exit ++ T 0 9 ++ C 0 .fork ++ T 0 1 ++ V 0 9 ++ [.fork 0] ++ T 0 7 ++
      C 0 .exit ++ T 0 4)
    (p := fun s => decide (startedBy s.g.tr = some false ∧
    (0, .realExit true) ∈ own s.g.tr ∧ (0, .initProcess 9) ∈ own s.g.tr ∧
    occurs Ev.isBeginExit (own s.g.tr) = 0 ∧ occurs Ev.isFiniProcess (own s.g.tr) = 0))
    (by decide +kernel)
  exact ⟨s, hr, of_decide_eq_true hp⟩

/-- ... and, if the parent had threads, threads the child creates are refused: they never get
to their start routines. -/
theorem C08_child_threads_refused : ∃ s, Reach s ∧ startedBy s.g.tr = some false ∧
    (2, .refused) ∈ own s.g.tr ∧ (∃ c d, (0, .spawn c 2 (.slot 0 0) 90 91 d) ∈ own s.g.tr) ∧
    s.th 2 = [] := by
  obtain ⟨s, hr, hp⟩ := exists_of_run
    (ls := toMain ++ create1 0 70 71 9 ++ begin 1 5 ++ T 1 6 ++ C 0 .exit ++ T 0 15 ++ C 0 .fork ++
      T 0 1 ++ V 0 9 ++ [.fork 0] ++ T 0 7 ++ C 0 (.create 90 91) ++ T 0 7 ++ V 0 11 ++ T 0 7 ++ T 2 4)
    (p := fun s => decide (startedBy s.g.tr = some false ∧
    (2, .refused) ∈ own s.g.tr ∧ ((0, .spawn 2 2 (.slot 0 0) 90 91 11) ∈ own s.g.tr) ∧
    s.th 2 = []))
    (by decide +kernel)
  obtain ⟨h1, h2, h3, h4⟩ := of_decide_eq_true hp
  exact ⟨s, hr, h1, h2, ⟨_, _, h3⟩, h4⟩

/-- The winner is interrupted by a signal right after the compare-and-swap and its handler calls
pthread_exit: no callback is ever delivered, and main's exit waits forever. -/
theorem C08_winner_ends : ∃ s, Reach s ∧ occurs Ev.isBeginExit s.g.tr = 0 ∧
    (∀ u, u ≠ 0 → s.th u = []) ∧ (∀ ok v, next s (.step 0 (.go ok v)) = none) := by
  obtain ⟨s, hr, hp⟩ := exists_of_run
    (ls := toMain ++ create1 0 70 71 9 ++ begin 1 5 ++ C 1 .exit ++ T 1 2 ++ I 1 ++ U 1 ++ T 1 6 ++
      C 0 .exit ++ T 0 2)
    (p := fun s => decide (occurs Ev.isBeginExit s.g.tr = 0 ∧ s.g.nextTid = 2 ∧ s.th 1 = [] ∧
      (s.th 0).head? = some (.epWait .normal) ∧ s.g.finiProcDone = false)) (by decide +kernel)
  obtain ⟨h3, h4, h5, h7, h8⟩ := of_decide_eq_true hp
  refine ⟨s, hr, h3, fun u hu => ?_, fun ok v => ?_⟩
  · by_cases e : s.g.nextTid ≤ u
    · exact fresh_inv hr u e
    · have : u = 1 := by omega
      subst this; exact h5
  · simp only [next, step]
    split
    · rfl
    · split
      · rfl
      · rename_i f rest ht
        rw [ht] at h7
        injection h7 with h7; subst h7
        simp [fstep, h8]

/-- Thread 1 forks; two threads of the child race to exit: one has to wait for the child's own
winner, and the child exits with callbacks of its own. -/
def childExit : List Lbl :=
  three ++ C 1 .fork ++ T 1 1 ++ V 1 9 ++ [.fork 1] ++ T 1 5 ++ V 1 8 ++ T 1 1 ++
    C 1 (.create 90 91) ++ T 1 7 ++ V 1 11 ++ T 1 7 ++ begin 3 7 ++ C 1 .exit ++ T 1 2 ++
    C 3 .exit ++ T 3 2 ++ T 1 10 ++ D 3 ++ T 3 3 ++ F 1 ++ T 1 6

example : ∃ s, ReachA CalmFork s ∧ startedBy s.g.tr = some false ∧
    (1, .finiProcess .normal 8) ∈ own s.g.tr ∧ (1, .realExit true) ∈ own s.g.tr := by
  obtain ⟨s, hr, hp⟩ := exists_of_runA (A := CalmFork) (ls := childExit)
    (p := fun s => decide (startedBy s.g.tr = some false ∧
      (1, .finiProcess .normal 8) ∈ own s.g.tr ∧ (1, .realExit true) ∈ own s.g.tr))
    (by decide +kernel)
  exact ⟨s, hr, of_decide_eq_true hp⟩

example : ∃ s, ReachA CalmExit s ∧ startedBy s.g.tr = some false ∧ .epWait .normal ∈ s.th 3 := by
  obtain ⟨s, hr, hp⟩ := exists_of_runA (A := CalmExit) (ls := childExit)
    (p := fun s => decide (startedBy s.g.tr = some false ∧ .epWait .normal ∈ s.th 3))
    (by decide +kernel)
  exact ⟨s, hr, of_decide_eq_true hp⟩

end Libmonitor.Proc
