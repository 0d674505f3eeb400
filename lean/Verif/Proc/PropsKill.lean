import Verif.Proc.Kill
import Verif.Proc.Finished
import Verif.Proc.Sched
/-!
# C55: the threads that are sent signals have not ended
-/

namespace Libmonitor.Proc

/-- C55: monitor_broadcast_signal signals no created thread that has ended, before the exit cleanup
begins.

Missing: executions outside `CleanTame`; calls during which the process forks; the initial thread;
broadcasts during the exit cleanup.  The claim fails there: `C55_blocked_thread`,
`C55_ended_in_callback`, `C55_main_cancelled`, `C55_broadcast_in_exit`. -/
theorem C55_broadcast_partial {s s' : S} (hs : ReachA CleanTame s) {t u : Tid} {i : Inp} {sig : Nat}
    (hn : next s (.step t i) = some s') (hk : s'.g.tr = (t, .kill (some u) (some sig)) :: s.g.tr)
    (hx : ∀ w, (w, .shootdown) ∉ s.g.tr)
    (hc : startedBy s.g.tr = none ∨ callOf t 0 (own s.g.tr) ≠ none) (hu : u ≠ mainOf s.g.tr) :
    s.th u ≠ [] := by
  have hr : ReachA Clean s := reach_mono (fun _ _ h => h.1) hs
  have hcall : ∀ f, f ∈ s.th t → (∃ sig, f = .br1 sig []) ∨ (∃ sig n l, f = .brKill sig n l) →
      ∃ x, callOf t 0 (own s.g.tr) = some x := by
    intro f hf hor
    have hB := (broad_inv hr).2 t f hf
    have h1 : callOf t 0 s.g.tr ≠ none := by
      rcases hor with ⟨_, e⟩ | ⟨_, _, _, e⟩ <;> subst e <;> exact hB.1
    have h2 : callOf t 0 (own s.g.tr) ≠ none := by
      rcases hc with hc | hc
      · rw [own_started hc]; exact h1
      · exact hc
    exact Option.ne_none_iff_exists'.1 h2
  have hmain : s.g.hasUsed = true → born s.g.tr = false →
      (s.g.nodes .main).self = some (mainOf s.g.tr) := fun h1 h2 => ((tsd_inv hr).1.2 h1 h2).1
  rcases kill_step hn hk with ⟨k, rest, ht, h1, _⟩ | ⟨k, n, todo, rest, ht, h1, _⟩ |
    ⟨_, _, _, _, _, _, _, _, h1⟩
  · have hf : Frame.br1 k [] ∈ s.th t := by rw [ht]; exact List.mem_cons_self
    obtain ⟨x, hx0⟩ := hcall _ hf (Or.inl ⟨_, rfl⟩)
    have hB := ((broad_inv hr).2 t _ hf).2 x.1 x.2 hx0
    rw [hmain hB.used (born_of_call hx0)] at h1
    injection h1 with h1
    exact absurd h1.symm hu
  · have hf : Frame.brKill k n todo ∈ s.th t := by rw [ht]; exact List.mem_cons_self
    obtain ⟨x, hx0⟩ := hcall _ hf (Or.inr ⟨_, _, _, rfl⟩)
    have hB := (((broad_inv hr).2 t _ hf).2 x.1 x.2 hx0).1
    have hb := born_of_call hx0
    have hnm : n ≠ .main := fun e => by
      subst e
      rw [hmain hB.used hb] at h1
      injection h1 with h1
      exact hu h1.symm
    have hin : s.g.inExit = false := by
      cases hin : s.g.inExit with
      | false => rfl
      | true => obtain ⟨w, hw⟩ := (inExit_inv hr).2 hin; exact absurd hw (hx w)
    rcases alive_inv hs u hb n (hB.list n List.mem_cons_self hnm).1 hnm h1
      (kill_inv hr hf x hx0 hnm) with ⟨f, h2, _⟩ | h2 | ⟨_, h2⟩
    · exact List.ne_nil_of_mem h2
    · rw [(inExit_inv hr).1 h2] at hin; cases hin
    · rw [h2] at hin; cases hin
  · cases h1

/-- Thread 1 of three signals thread 2. -/
example : ∃ s s', ReachA CleanTame s ∧ next s (.step 1 (.go true 0)) = some s' ∧
    s'.g.tr = (1, .kill (some 2) (some 7)) :: s.g.tr ∧ startedBy s.g.tr = none ∧ mainOf s.g.tr = 0 ∧
    (∀ w, (w, .shootdown) ∉ s.g.tr) ∧ s.th 2 = [.btApp (.slot 0 1)] := by
  obtain ⟨s, hr, hp⟩ := exists_of_runA (A := CleanTame) (ls := three ++ C 1 (.broadcast 7) ++ T 1 2)
    (p := fun s => decide ((∃ s' ∈ next s (.step 1 (.go true 0)),
      s'.g.tr = (1, .kill (some 2) (some 7)) :: s.g.tr) ∧ startedBy s.g.tr = none ∧
      mainOf s.g.tr = 0 ∧ (∀ x ∈ s.g.tr, x.2 ≠ .shootdown) ∧ s.th 2 = [.btApp (.slot 0 1)]))
    (by decide +kernel)
  obtain ⟨⟨s', h1, h2⟩, h3, h4, h5, h6⟩ := of_decide_eq_true hp
  exact ⟨s, s', hr, h1, h2, h3, h4, fun w hw => h5 _ hw rfl, h6⟩

/-- C55: the exit cleanup signals no created thread that has ended, unless that thread has begun its
fini-thread callback meanwhile; and it never signals an unknown thread.  The exit was begun in this
process (always so if the process was not made by fork).

Missing: executions outside `CleanTame`, the initial thread, processes made by a fork during the
exit (`C55_null_after_fork`).  A thread can end between the test of its record and the signal:
`C55_ended_before_signal`. -/
theorem C55_shootdown_partial {s s' : S} (hs : ReachA CleanTame s) {t : Tid} {i : Inp}
    {tgt : Option Tid} (hn : next s (.step t i) = some s')
    (hk : s'.g.tr = (t, .kill tgt none) :: s.g.tr)
    (hst : startedBy s.g.tr = none ∨ ∃ how, (t, .beginExit how) ∈ own s.g.tr) :
    ∃ u, tgt = some u ∧ (u = mainOf s.g.tr ∨ s.th u ≠ [] ∨
      ∃ k d src, (u, .finiThread k d src) ∈ s.g.tr) := by
  have hr : ReachA Clean s := reach_mono (fun _ _ h => h.1) hs
  rcases kill_step hn hk with ⟨_, _, _, _, h1⟩ | ⟨_, _, _, _, _, _, h1⟩ |
    ⟨my, n, todo, a, b, rest, ht, h1, _⟩
  · cases h1
  · cases h1
  · have hf : Frame.sdKill my n todo a b ∈ s.th t := by rw [ht]; exact List.mem_cons_self
    obtain ⟨hin, hb, hl⟩ := (scan_inv hr hf).2 rfl
    by_cases hnm : n = .main
    · subst hnm
      have hbe : ∃ how, (t, Ev.beginExit how) ∈ own s.g.tr := by
        rcases hst with hst | hst
        · rw [own_started hst]
          exact (exiting_inv hr).1 t (shooting_inv hr hf rfl)
        · exact hst
      obtain ⟨how, hbe⟩ := hbe
      have hm := ((tsd_inv hr).1.2 (looked_inv hr hf rfl hbe) hb).1
      exact ⟨_, h1.symm.trans hm, Or.inl rfl⟩
    · have hl := hl n List.mem_cons_self hnm
      obtain ⟨_, u, hu, hw, _⟩ := list_self hr hb hl hnm
      refine ⟨u, by rw [← h1, hw], Or.inr ?_⟩
      rcases alive_inv hs u hb n hl hnm hw (kill_inv hr hf hnm) with ⟨f, h2, _⟩ | h2 | ⟨h2, _⟩
      · exact Or.inl (List.ne_nil_of_mem h2)
      · rw [walk_open hr ht rfl] at h2; cases h2
      · exact Or.inr (((listI_inv hr hb).1 n hl hnm u hw).2.2 h2)

/-- The exit cleanup of main signals thread 2. -/
example : ∃ s s', ReachA CleanTame s ∧ next s (.step 0 (.go true 0)) = some s' ∧
    s'.g.tr = (0, .kill (some 2) none) :: s.g.tr ∧ startedBy s.g.tr = none := by
  obtain ⟨s, hr, hp⟩ := exists_of_runA (A := CleanTame) (ls := three ++ C 0 .exit ++ T 0 9)
    (p := fun s => decide ((∃ s' ∈ next s (.step 0 (.go true 0)),
      s'.g.tr = (0, .kill (some 2) none) :: s.g.tr) ∧ startedBy s.g.tr = none)) (by decide +kernel)
  obtain ⟨⟨s', h1, h2⟩, h3⟩ := of_decide_eq_true hp
  exact ⟨s, s', hr, h1, h2, h3⟩

/-- C55 fails in the exit cleanup: main has seen that thread 2 has not begun its fini-thread callback;
thread 2 leaves its start routine, calls it and ends; then main signals it. -/
theorem C55_ended_before_signal : ∃ s, ReachA CleanTame s ∧
    s.g.tr.head? = some (0, .kill (some 2) none) ∧ s.th 2 = [] := by
  obtain ⟨s, hr, hp⟩ := exists_of_runA (A := CleanTame)
    (ls := three ++ C 0 .exit ++ T 0 9 ++ T 2 7 ++ T 0 1)
    (p := fun s => decide (s.g.tr.head? = some (0, .kill (some 2) none) ∧ s.th 2 = []))
    (by decide +kernel)
  exact ⟨s, hr, of_decide_eq_true hp⟩

/-- C55 fails for broadcasts during the exit cleanup: thread 2 has seen that thread 1 has not begun its
fini-thread callback; thread 1 gets the signal of the exit cleanup, calls fini-thread and ends; then
thread 2 signals it. -/
theorem C55_broadcast_in_exit : ∃ s, ReachA CleanTame s ∧
    s.g.tr.head? = some (2, .kill (some 1) (some 7)) ∧ s.th 1 = [] := by
  obtain ⟨s, hr, hp⟩ := exists_of_runA (A := CleanTame)
    (ls := three ++ C 0 .exit ++ T 0 8 ++ C 2 (.broadcast 7) ++ T 2 3 ++ D 1 ++ T 1 3 ++ T 1 3 ++ T 2 1)
    (p := fun s => decide (s.g.tr.head? = some (2, .kill (some 1) (some 7)) ∧ s.th 1 = []))
    (by decide +kernel)
  exact ⟨s, hr, of_decide_eq_true hp⟩

/-- C55 fails after monitor_block_shootdown: thread 1 calls it and ends; its record stays on the list,
and main's broadcast signals it. -/
theorem C55_blocked_thread : ∃ s, ReachA Clean s ∧
    s.g.tr.head? = some (0, .kill (some 1) (some 7)) ∧ s.th 1 = [] := by
  obtain ⟨s, hr, hp⟩ := exists_of_runA (A := Clean)
    (ls := three ++ C 1 (.block true) ++ T 1 4 ++ C 0 (.broadcast 7) ++ T 0 5)
    (p := fun s => decide (s.g.tr.head? = some (0, .kill (some 1) (some 7)) ∧ s.th 1 = []))
    (by decide +kernel)
  exact ⟨s, hr, of_decide_eq_true hp⟩

/-- C55 fails if a thread calls pthread_exit in its fini-thread callback: main's broadcast has seen
that thread 1 has not begun the callback and holds the lock, but thread 1 ends without taking it. -/
theorem C55_ended_in_callback : ∃ s, ReachA Clean s ∧
    s.g.tr.head? = some (0, .kill (some 1) (some 7)) ∧ s.th 1 = [] := by
  obtain ⟨s, hr, hp⟩ := exists_of_runA (A := Clean)
    (ls := three ++ C 0 (.broadcast 7) ++ T 0 4 ++ T 1 3 ++ C 1 .pthreadExit ++ T 1 2 ++ T 0 1)
    (p := fun s => decide (s.g.tr.head? = some (0, .kill (some 1) (some 7)) ∧ s.th 1 = []))
    (by decide +kernel)
  exact ⟨s, hr, of_decide_eq_true hp⟩

/-- C55 fails for the initial thread: it is cancelled and ends; thread 1 goes on, and its broadcast
signals the initial thread. -/
theorem C55_main_cancelled : ∃ s, ReachA CleanTame s ∧
    s.g.tr.head? = some (1, .kill (some 0) (some 7)) ∧ s.th 0 = [] := by
  obtain ⟨s, hr, hp⟩ := exists_of_runA (A := CleanTame)
    (ls := three ++ U 0 ++ T 0 1 ++ C 1 (.broadcast 7) ++ T 1 5)
    (p := fun s => decide (s.g.tr.head? = some (1, .kill (some 0) (some 7)) ∧ s.th 0 = []))
    (by decide +kernel)
  exact ⟨s, hr, of_decide_eq_true hp⟩

/-- C55 fails after a fork during the exit: thread 1 calls exit and has seen that there are threads; a
signal handler of the application forks.  In the child the list is reset, thread 1 is main but its
identity is not recorded (pthread.c:335-348); the exit goes on, and the signal is sent to the zero
pthread_t. -/
theorem C55_null_after_fork : ∃ s, ReachA CleanTame s ∧
    s.g.tr.head? = some (1, .kill none none) := by
  obtain ⟨s, hr, hp⟩ := exists_of_runA (A := CleanTame)
    (ls := three ++ C 1 .exit ++ T 1 5 ++ I 1 ++ C 1 .fork ++ T 1 1 ++ V 1 9 ++ [.fork 1] ++ T 1 5 ++ V 1 8 ++ T 1 2 ++ T 1 5)
    (p := fun s => decide (s.g.tr.head? = some (1, .kill none none))) (by decide +kernel)
  exact ⟨s, hr, of_decide_eq_true hp⟩

end Libmonitor.Proc
