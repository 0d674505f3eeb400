import Verif.Proc.WeakExit
import Verif.Proc.Sched
/-!
# C69, C70: the library without its thread module
-/

namespace Libmonitor.Proc

/-- C69: in a program that makes no threads, the library without its thread module goes through
exactly the states (callbacks, their arguments, query results, what is passed to the system) that
the full library goes through. -/
theorem C69_same {s : S} : ReachW NoSpawn s ↔ ReachA NoThreads s := by
  constructor
  · intro h
    induction h with
    | init => exact .init
    | @next s s' l hr hA hn ih =>
      rcases nextW_cases (plain_inv hr) hn with ⟨l', rfl, hl, hn'⟩ | ⟨rfl, _⟩
      · exact .next ih hl hn'
      · exact absurd hA (by simp [NoSpawn])
  · intro h
    induction h with
    | init => exact .init
    | @next s s' l hr hA hn ih =>
      exact .next ih (l := .lib l) trivial (nextW_of_next (plain_inv ih) hA hn)

/-- C69, step by step: after any execution without threads the two do the same next. -/
theorem C69_step {s : S} (hs : ReachW NoSpawn s) {l : Lbl} (hl : NoThreads s l) :
    nextW s (.lib l) = next s l := by
  cases h : next s l with
  | some s' => exact nextW_of_next (plain_inv hs) hl h
  | none =>
    cases h' : nextW s (.lib l) with
    | none => rfl
    | some s' =>
      rcases nextW_cases (plain_inv hs) h' with ⟨l', e, _, hn'⟩ | ⟨e, _⟩
      · cases e; rw [h] at hn'; cases hn'
      · cases e

/-- C69: the functions left out are not available. -/
theorem C69_unavailable {s : S} {l : Lbl} (hl : ¬ NoThreads s l) : nextW s (.lib l) = none := by
  cases l with
  | fork t => exact absurd trivial hl
  | step t i =>
    cases i <;> try exact absurd trivial hl
    rename_i a
    simp only [nextW, stepW]
    split
    · rfl
    · split
      · rfl
      · cases a <;> first | exact absurd trivial hl | simp [Api.inSubset]

/-- C69: the client's queries are answered as for the main thread of an unthreaded program: number
0, no threads, and main's data (the value that fini-process would receive). -/
theorem C69_queries {s : S} (hs : ReachW AnyW s) :
    Always (fun old _ e => (∀ n, e = .gotNum n → n = 0) ∧ (∀ d, e = .gotData d → d = lastData old) ∧
      ∀ b, e = .gotThreaded b → b = false) s.g.tr :=
  (askedW_inv hs).2

/-- An execution with a fork, in which the client asks for its data and the child exits. -/
example : ∃ s, ReachW NoSpawn s ∧ (0, .gotData 7) ∈ s.g.tr ∧ (0, .forked false) ∈ s.g.tr ∧
    (0, .gotData 8) ∈ own s.g.tr ∧ (0, .gotNum 0) ∈ own s.g.tr ∧ (0, .gotThreaded false) ∈ own s.g.tr ∧
    (0, .finiProcess .normal 8) ∈ own s.g.tr ∧ (0, .realExit true) ∈ own s.g.tr := by
  obtain ⟨s, hr, hp⟩ := existsW_of_run (A := NoSpawn)
    (ls := (T 0 6 ++ V 0 7 ++ T 0 2 ++ C 0 .data ++ T 0 1 ++ C 0 .fork ++ T 0 2 ++ [Lbl.fork 0] ++ T 0 5 ++
      V 0 8 ++ T 0 1 ++ C 0 .data ++ T 0 1 ++ C 0 .num ++ T 0 1 ++ C 0 .threaded ++ T 0 1 ++
      C 0 .exit ++ T 0 9).map .lib)
    (p := fun s => decide ((0, .gotData 7) ∈ s.g.tr ∧ (0, .forked false) ∈ s.g.tr ∧
      (0, .gotData 8) ∈ own s.g.tr ∧ (0, .gotNum 0) ∈ own s.g.tr ∧ (0, .gotThreaded false) ∈ own s.g.tr ∧
      (0, .finiProcess .normal 8) ∈ own s.g.tr ∧ (0, .realExit true) ∈ own s.g.tr))
    (by decide) (by decide +kernel)
  exact ⟨s, hr, of_decide_eq_true hp⟩

/-- C70: fini-process is called at most once, however many threads race to exit. -/
theorem C70_fini_process_once {s : S} (hs : ReachW AnyW s) :
    occurs Ev.isFiniProcess s.g.tr ≤ 1 := by
  obtain ⟨h0, h2⟩ := oneTokW_fini hs
  cases hc : s.g.cookie with
  | false => have := (h0 hc).1; simp only at this; omega
  | true => obtain ⟨w, _, h⟩ := h2 hc; simp only at h; omega

/-- C70: and so is begin-process-exit. -/
theorem C70_begin_exit_once {s : S} (hs : ReachW AnyW s) :
    occurs Ev.isBeginExit s.g.tr ≤ 1 := by
  obtain ⟨h0, h2⟩ := oneTokW_begin hs
  cases hc : s.g.cookie with
  | false => have := (h0 hc).1; simp only at this; omega
  | true => obtain ⟨w, _, h⟩ := h2 hc; simp only at h; omega

/-- C70: fini-process is called by the thread in which begin-process-exit has been called and has
returned, with the same argument. -/
theorem C70_order {s : S} (hs : ReachW AnyW s) :
    Always (fun old t e =>
      (∀ how d, e = .finiProcess how d → (t, .beginExitRet how) ∈ old) ∧
      (∀ how, e = .beginExitRet how → (t, .beginExit how) ∈ old) ∧
      (∀ how, e = .finiProcessRet how → ∃ d, (t, .finiProcess how d) ∈ old)) s.g.tr := by
  have h := exitOrderW_inv hs
  revert h
  generalize s.g.tr = tr
  induction tr with
  | nil => exact fun _ => trivial
  | cons e tr ih =>
    obtain ⟨t, e⟩ := e
    rintro ⟨h1, h2⟩
    refine ⟨⟨?_, ?_, ?_⟩, ih h2⟩
    · rintro how d rfl; exact h1
    · rintro how rfl; exact h1
    · rintro how rfl; exact h1

/-- C70: no thread reaches the real exit, _exit, exec or fatal signal through the exit functions
before begin-process-exit has been called.  Missing: before fini-process has returned; that is
false, see `C70_overtakes`. -/
theorem C70_no_exit_before_begin_partial {s : S} (hs : ReachW AnyW s) :
    Always (fun old _ e => e.isHookedExit = true → ∃ t how, (t, .beginExit how) ∈ old) s.g.tr :=
  begunW_inv hs

/-- C70 does not hold in full: all threads share main's record, so a second thread that calls exit
while the first delivers the callbacks is taken for the first one calling exit again.  It reaches
the real exit while begin-process-exit runs, and ends the process: fini-process is never called. -/
theorem C70_overtakes : ∃ s, ReachW AnyW s ∧ (0, .beginExit .normal) ∈ s.g.tr ∧
    (1, .realExit true) ∈ s.g.tr ∧ s.g.dead = true ∧ occurs Ev.isFiniProcess s.g.tr = 0 := by
  obtain ⟨s, hr, hp⟩ := existsW_of_run (A := AnyW)
    (ls := toMain.map .lib ++ [.spawn] ++
      (C 0 .exit ++ T 0 3 ++ C 1 .exit ++ T 1 4 ++ T 1 4).map .lib)
    (p := fun s => decide ((0, .beginExit .normal) ∈ s.g.tr ∧ (1, .realExit true) ∈ s.g.tr ∧
      s.g.dead = true ∧ occurs Ev.isFiniProcess s.g.tr = 0))
    (fun _ _ => trivial) (by decide +kernel)
  exact ⟨s, hr, of_decide_eq_true hp⟩

/-- Two threads race to exit, the first wins and both get through. -/
example : ∃ s, ReachW AnyW s ∧ occurs Ev.isFiniProcess s.g.tr = 1 ∧
    (0, .realExit true) ∈ s.g.tr ∧ (1, .realExit true) ∈ s.g.tr := by
  obtain ⟨s, hr, hp⟩ := existsW_of_run (A := AnyW)
    (ls := toMain.map .lib ++ [.spawn] ++
      (C 0 .exit ++ C 1 .exit ++ T 0 9 ++ T 1 4).map .lib)
    (p := fun s => decide (occurs Ev.isFiniProcess s.g.tr = 1 ∧
      (0, .realExit true) ∈ s.g.tr ∧ (1, .realExit true) ∈ s.g.tr))
    (fun _ _ => trivial) (by decide +kernel)
  exact ⟨s, hr, of_decide_eq_true hp⟩

end Libmonitor.Proc
