import Verif.Proc.Exit
import Verif.Proc.Sched
/-!
# C01, C02, C03: the exit callbacks
-/

namespace Libmonitor.Proc

/-- C01.  In every process, whatever its threads do and however often exit functions are entered,
fini-process is started at most once. -/
theorem C01_fini_process_once {s : S} (hs : Reach s) :
    occurs Ev.isFiniProcess (own s.g.tr) ≤ 1 := by
  have h1 := occurs_own Ev.isFiniProcess s.g.tr
  obtain ⟨h0, h2⟩ := oneTok_fini hs
  cases hc : s.g.cookie with
  | false => have := (h0 hc).1; simp only at this; omega
  | true => obtain ⟨w, _, h⟩ := h2 hc; simp only at h; omega

/-- C01 with the ancestors counted in: at most one process of a line of descent by fork starts
fini-process (a consequence of the cookie not being reset, see C08). -/
theorem C01_fini_process_once_in_lineage {s : S} (hs : Reach s) :
    occurs Ev.isFiniProcess s.g.tr ≤ 1 := by
  obtain ⟨h0, h2⟩ := oneTok_fini hs
  cases hc : s.g.cookie with
  | false => have := (h0 hc).1; simp only at this; omega
  | true => obtain ⟨w, _, h⟩ := h2 hc; simp only at h; omega

/-- C02, first part: begin-process-exit is started at most once in every process. -/
theorem C02_begin_exit_once {s : S} (hs : Reach s) :
    occurs Ev.isBeginExit (own s.g.tr) ≤ 1 := by
  have h1 := occurs_own Ev.isBeginExit s.g.tr
  obtain ⟨h0, h2⟩ := oneTok_begin hs
  cases hc : s.g.cookie with
  | false => have := (h0 hc).1; simp only at this; omega
  | true => obtain ⟨w, _, h⟩ := h2 hc; simp only at h; omega

/-- C02, second part: when fini-process is started, begin-process-exit has returned in the same
thread, where it had been called with the same argument. -/
theorem C02_fini_process_after_begin_exit {s : S} (hs : Reach s) :
    Always (fun old t e => ∀ how d, e = .finiProcess how d →
      ∃ a b c, old = a ++ (t, .beginExitRet how) :: b ++ (t, .beginExit how) :: c) s.g.tr := by
  have h := (exitOrder_inv hs).1
  revert h
  generalize s.g.tr = tr
  intro h
  induction tr with
  | nil => trivial
  | cons e tr ih =>
    obtain ⟨t, e⟩ := e
    refine ⟨?_, ih h.2⟩
    rintro how d rfl
    obtain ⟨a, b, hab⟩ := List.append_of_mem (show (t, Ev.beginExitRet how) ∈ tr from h.1)
    have hb : Always exitOrder ((t, Ev.beginExitRet how) :: b) := by
      have := h.2
      rw [hab] at this
      clear hab h ih
      induction a with
      | nil => exact this
      | cons x a ih => exact ih this.2
    obtain ⟨b', c, hbc⟩ := List.append_of_mem (show (t, Ev.beginExit how) ∈ b from hb.1)
    exact ⟨a, b', c, by rw [hab, hbc]; simp⟩

/-- C03: no thread reaches the real exit, _exit, exec or fatal signal through the exit functions
before fini-process has returned, unless a thread came through monitor_end_process_fcn as repeat
winner.  Missing for the full claim: that such a thread is the one that delivers the callbacks;
see `C03_stale_record` and, without reuse of the record of a thread that is not gone yet,
`C03_repeat_is_winner_partial`. -/
theorem C03_no_exit_before_fini_process_partial {s : S} (hs : Reach s) :
    Always (fun old _ e => e.isHookedExit = true →
      (∃ t how, (t, .finiProcessRet how) ∈ old) ∨
      (∃ t how, (t, .resume how .again) ∈ old)) s.g.tr := by
  have h := (cov_inv hs).1
  exact h

/-- C03 does not hold without exception: thread 1 has run its cleanup routine and is in the
destructors of its thread-specific data; its record has been given to thread 3, which is
delivering the exit callbacks; thread 1 calls exit and is taken for the repeat winner.  It reaches
the real exit although fini-process has not returned and thread 3 has not re-entered anything. -/
theorem C03_stale_record : ∃ s, Reach s ∧
    (1, .realExit true) ∈ s.g.tr ∧ (3, .beginExit .normal) ∈ s.g.tr ∧
    occurs Ev.isFiniProcessRet s.g.tr = 0 ∧
    (∀ e ∈ s.g.tr, e.2.isAgain = true → e.1 = 1) := by
  obtain ⟨s, hr, hp⟩ := exists_of_run
    (ls := recordReused ++ C 3 .exit ++ T 3 3 ++ C 1 .exit ++ T 1 4)
    (p := fun s => decide ((1, .realExit true) ∈ s.g.tr ∧ (3, .beginExit .normal) ∈ s.g.tr ∧
      occurs Ev.isFiniProcessRet s.g.tr = 0 ∧ (∀ e ∈ s.g.tr, e.2.isAgain = true → e.1 = 1)))
    (by decide +kernel)
  exact ⟨s, hr, of_decide_eq_true hp⟩

/-- C03's exception is needed: the delivering thread calls exit from its fini-process callback;
main, which was waiting, reaches the real exit before fini-process has returned. -/
theorem C03_reentry : ∃ s, Reach s ∧
    (0, .realExit true) ∈ s.g.tr ∧ occurs Ev.isFiniProcessRet s.g.tr = 0 := by
  obtain ⟨s, hr, hp⟩ := exists_of_run
    (ls := toMain ++ create1 0 70 71 9 ++ begin 1 5 ++ C 1 .exit ++ T 1 3 ++ C 0 .exit ++ T 0 2 ++
      C 1 .exit ++ T 1 3 ++ T 0 3)
    (p := fun s => decide ((0, .realExit true) ∈ s.g.tr ∧
      occurs Ev.isFiniProcessRet s.g.tr = 0))
    (by decide +kernel)
  exact ⟨s, hr, of_decide_eq_true hp⟩

/-- Two threads race to exit; both get through, fini-process and begin-process-exit ran once. -/
example : ∃ s, Reach s ∧ occurs Ev.isFiniProcess (own s.g.tr) = 1 ∧
    occurs Ev.isBeginExit (own s.g.tr) = 1 ∧ (0, .realExit true) ∈ s.g.tr ∧
    (1, .realExit true) ∈ s.g.tr := by
  obtain ⟨s, hr, hp⟩ := exists_of_run (ls := threeExit)
    (p := fun s => decide (occurs Ev.isFiniProcess (own s.g.tr) = 1 ∧
      occurs Ev.isBeginExit (own s.g.tr) = 1 ∧ (0, .realExit true) ∈ s.g.tr ∧
      (1, .realExit true) ∈ s.g.tr)) (by decide +kernel)
  exact ⟨s, hr, of_decide_eq_true hp⟩

end Libmonitor.Proc
