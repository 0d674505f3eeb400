import Verif.Proc.Ended
import Verif.Proc.Sched
/-!
# C71: every thread that has ended was finished

C12 to C14 say that fini-thread is called at most once, after init-thread, and when the process
exits.  Here: a thread that ends by itself while the process goes on does not get lost.
-/

namespace Libmonitor.Proc

/-- C71: a thread that was registered, has entered its start routine and is gone, in a process that
has not begun an exit cleanup, has had fini-thread, called by its cleanup routine with the number it was
registered with and the value init-thread returned, and the callback has returned.

Missing: threads that end with monitor_block_shootdown in effect (`C71_blocked`), threads that are
ended a second time in their cleanup routine (`C71_ended_twice`); and executions outside `Clean`. -/
theorem C71_finished_partial {s : S} (hs : ReachA CleanEnd s) {u : Tid} {k : Int}
    (hu : u ≠ mainOf s.g.tr) (hr : ranIn s.g.tr u k) (hgone : s.th u = [])
    (hx : ∀ w, (w, .shootdown) ∉ own s.g.tr) : finishedIn s.g.tr u k := by
  obtain ⟨hk, hst⟩ := hr
  have hx0 : s.g.inExit = false := by
    cases e : s.g.inExit with
    | false => rfl
    | true =>
      obtain ⟨w, hw⟩ := linked_shoot hs hk e
      exact absurd hw (hx w)
  rcases endS_inv hs u hu ⟨k, hk⟩ hst hx0 with ⟨k', ⟨d, h1, h2, h3⟩, h4⟩ | ⟨f, hf, _⟩
  · have e : k' = k := by
      have hc := life_linked hs u
      apply Classical.byContradiction
      intro hne
      have := occursBy_two (p := fun e => e.isLinked || e.isRefused)
        ((own_sublist _).subset h1) ((own_sublist _).subset hk) rfl rfl (by simpa using hne)
      omega
    subst e
    exact ⟨d, h2, h3, h4⟩
  · rw [hgone] at hf; cases hf

/-- C71: and not before it ends: while a created thread is in its start routine, and before an exit
cleanup has begun in the process, fini-thread has not been called in it.  Missing: as in C12. -/
theorem C71_not_early_partial {s : S} (hs : ReachA CleanCalm s) {u : Tid} {n : NodeId}
    (hu : u ≠ mainOf s.g.tr) (hrun : .btApp n ∈ s.th u)
    (hx : ∀ w, (w, .shootdown) ∉ own s.g.tr) {k : Int} {d : Data} {src : Src} :
    (u, .finiThread k d src) ∉ s.g.tr := by
  intro hm
  have hc : ReachA Clean s := reach_mono (fun _ _ h => h.1) hs
  have hown := (own_thread hc).2 u _ hrun hu
  have hk := hown _ (((recI_inv hc hrun).2 n hu rfl).linked rfl)
  have hx0 : s.g.inExit = false := by
    cases e : s.g.inExit with
    | false => rfl
    | true =>
      obtain ⟨w, hw⟩ := linked_shoot hs hk e
      exact absurd hw (hx w)
  have h1 := before_inv hc hrun n rfl rfl hu hx0
  have hmine : Mine s.g u n := Or.inr ⟨claims_ne_main hc hrun (Or.inr rfl), hu,
    ((tsd_inv hc).2 u _ hrun).2 n rfl (by simp) hu⟩
  have h2 := ((once_inv hs).2 u _ hrun).done (occursBy_pos (hown _ hm) rfl) n hmine
    (fun e => by cases e)
  rw [h1] at h2; cases h2

/-- Threads 1 and 2 are in their start routines, thread 2 in a signal handler. -/
example : ∃ s, ReachA CleanCalm s ∧ .btApp (.slot 0 0) ∈ s.th 1 ∧ .btApp (.slot 0 1) ∈ s.th 2 ∧
    mainOf s.g.tr = 0 ∧ ∀ e ∈ own s.g.tr, e.2 ≠ .shootdown := by
  obtain ⟨s, hr, hp⟩ := exists_of_runA (A := CleanCalm) (ls := three ++ I 2)
    (p := fun s => decide (.btApp (.slot 0 0) ∈ s.th 1 ∧ .btApp (.slot 0 1) ∈ s.th 2 ∧
      mainOf s.g.tr = 0 ∧ ∀ e ∈ own s.g.tr, e.2 ≠ .shootdown))
    (by decide +kernel)
  exact ⟨s, hr, of_decide_eq_true hp⟩

/-- Thread 1 returns from its start routine, thread 2 is cancelled in a signal handler; both are
gone, and main goes on. -/
example : ∃ s, ReachA CleanEnd s ∧ ranIn s.g.tr 1 1 ∧ s.th 1 = [] ∧ ranIn s.g.tr 2 2 ∧ s.th 2 = [] ∧
    mainOf s.g.tr = 0 ∧ s.th 0 = [.mainApp] ∧ ∀ e ∈ own s.g.tr, e.2 ≠ .shootdown := by
  obtain ⟨s, hr, hp⟩ := exists_of_runA (A := CleanEnd)
    (ls := three ++ T 1 7 ++ I 2 ++ U 2 ++ T 2 6)
    (p := fun s => decide ((1, .linked 1) ∈ own s.g.tr ∧ (1, .start 70 71) ∈ own s.g.tr ∧
      s.th 1 = [] ∧ (2, .linked 2) ∈ own s.g.tr ∧ (2, .start 80 81) ∈ own s.g.tr ∧ s.th 2 = [] ∧
      mainOf s.g.tr = 0 ∧ s.th 0 = [.mainApp] ∧ ∀ e ∈ own s.g.tr, e.2 ≠ .shootdown))
    (by decide +kernel)
  obtain ⟨h1, h2, h3, h4, h5, h6⟩ := of_decide_eq_true hp
  exact ⟨s, hr, ⟨h1, _, _, h2⟩, h3, ⟨h4, _, _, h5⟩, h6⟩

/-- C71 fails for a thread that ends with monitor_block_shootdown in effect: pthread.c:918 tests
the flag in the cleanup routine, too. -/
theorem C71_blocked : ∃ s, ReachA Clean s ∧ ranIn s.g.tr 1 1 ∧ s.th 1 = [] ∧ mainOf s.g.tr = 0 ∧
    (∀ e ∈ own s.g.tr, e.2 ≠ .shootdown) ∧ occursBy 1 Ev.isFiniThread s.g.tr = 0 := by
  obtain ⟨s, hr, hp⟩ := exists_of_runA (A := Clean)
    (ls := three ++ C 1 (.block true) ++ T 1 4)
    (p := fun s => decide ((1, .linked 1) ∈ own s.g.tr ∧ (1, .start 70 71) ∈ own s.g.tr ∧
      s.th 1 = [] ∧ mainOf s.g.tr = 0 ∧ (∀ e ∈ own s.g.tr, e.2 ≠ .shootdown) ∧
      occursBy 1 Ev.isFiniThread s.g.tr = 0))
    (by decide +kernel)
  obtain ⟨h1, h2, h3⟩ := of_decide_eq_true hp
  exact ⟨s, hr, ⟨h1, _, _, h2⟩, h3⟩

/-- C71 fails for a thread whose signal handler calls pthread_exit in the cleanup routine, before
fini-thread: the routine is not run again. -/
theorem C71_ended_twice : ∃ s, ReachA Clean s ∧ ranIn s.g.tr 1 1 ∧ s.th 1 = [] ∧
    mainOf s.g.tr = 0 ∧ (∀ e ∈ own s.g.tr, e.2 ≠ .shootdown) ∧
    occursBy 1 Ev.isFiniThread s.g.tr = 0 := by
  obtain ⟨s, hr, hp⟩ := exists_of_runA (A := Clean)
    (ls := three ++ T 1 1 ++ I 1 ++ C 1 .pthreadExit ++ T 1 2)
    (p := fun s => decide ((1, .linked 1) ∈ own s.g.tr ∧ (1, .start 70 71) ∈ own s.g.tr ∧
      s.th 1 = [] ∧ mainOf s.g.tr = 0 ∧ (∀ e ∈ own s.g.tr, e.2 ≠ .shootdown) ∧
      occursBy 1 Ev.isFiniThread s.g.tr = 0))
    (by decide +kernel)
  obtain ⟨h1, h2, h3⟩ := of_decide_eq_true hp
  exact ⟨s, hr, ⟨h1, _, _, h2⟩, h3⟩

end Libmonitor.Proc
