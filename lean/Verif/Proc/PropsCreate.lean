import Verif.Proc.Post
import Verif.Proc.PropsThread
/-!
# C17, C22: ignored threads; pre-create and post-create
-/

namespace Libmonitor.Proc

/-- C17: an ignored thread never gets init-thread (all executions). -/
theorem C17_never_init {s : S} (hs : Reach s) {u w c st ar : Nat}
    (h : madeBy s.g.tr u w c st ar none) : occursBy u Ev.isInitThread s.g.tr = 0 := by
  refine List.countP_eq_zero.2 ?_
  rintro ⟨u', e⟩ hm hp
  simp only [Bool.and_eq_true, decide_eq_true_eq] at hp
  obtain ⟨rfl, hp⟩ := hp
  cases e <;> try (cases hp; done)
  obtain ⟨a, old, e1, w', c', st', ar', d', n, e2⟩ := Always.mem (initMade_inv hs) hm
  have h' : madeBy s.g.tr u' w' c' st' ar' (some d') :=
    ⟨n, by rw [e1]; exact List.mem_append_right _ (List.mem_cons_of_mem _ e2)⟩
  have := (C11_made_once hs h h').2.2.2.2
  cases this

theorem reach_of {A : S → Lbl → Prop} {s : S} (hs : ReachA A s) : Reach s := by
  induction hs with
  | init => exact .init
  | next _ _ h ih => exact .next ih trivial h

/-- C17: an ignored thread never gets fini-thread, as long as it is not the initial thread of a
process (it becomes that of the child when it calls fork).

Missing: executions outside `Clean` (`C17_child_confused`). -/
theorem C17_never_fini_partial {s : S} (hs : ReachA Clean s) {u w c st ar : Nat}
    (h : madeBy s.g.tr u w c st ar none) :
    Always (fun old t e => t = u → e.isFiniThread = true → u = mainOf old) s.g.tr := by
  have key : ∀ tr : Hist, (∃ b, s.g.tr = b ++ tr) → Always finiMade tr →
      Always (fun old t e => t = u → e.isFiniThread = true → u = mainOf old) tr := by
    intro tr
    induction tr with
    | nil => intro _ _; trivial
    | cons x tr ih =>
      obtain ⟨t, x⟩ := x
      rintro ⟨b, hb⟩ hA
      refine ⟨?_, ih ⟨b ++ [(t, x)], by rw [hb]; simp⟩ hA.2⟩
      rintro rfl hx
      have hA1 := hA.1
      cases x <;> try (cases hx; done)
      rcases hA1 with e | ⟨w', c', st', ar', d', n, e2⟩
      · exact e
      · exfalso
        have h' : madeBy s.g.tr t w' c' st' ar' (some d') :=
          ⟨n, by rw [hb]; exact List.mem_append_right _ (List.mem_cons_of_mem _ e2)⟩
        have := (C11_made_once (reach_of hs) h h').2.2.2.2
        cases this
  exact key _ ⟨[], rfl⟩ (finiMade_inv hs)

/-- C17, which threads are not ignored: pre-create was called and did not say to ignore the thread,
and it is called only if, since pthread_create was entered, there was a moment when the calling thread
had not disabled new threads and was itself not an ignored one.  So all other threads are ignored.

Missing: executions outside `Clean` (`C17_child_confused`). -/
theorem C17_registered_partial {s : S} (hs : ReachA Clean s) :
    Always (fun old t e =>
      (∀ c u n st ar d, e = .spawn c u n st ar d →
        d ≠ ignoreData ∧ (t, .preCreateRet c d) ∈ old ∧ (t, .preCreate c) ∈ old ∧
          enabledIn old t c) ∧
      (∀ c, e = .preCreate c → enabledIn old t c)) s.g.tr := by
  refine Always.imp ?_ (Always.and (Always.past (life_order hs).1.1) (Always.past (enabled_inv hs).1))
  rintro old t e ⟨⟨a1, a2⟩, b1, b2⟩
  refine ⟨?_, ?_⟩
  · rintro c u n st ar d rfl
    obtain ⟨_, h1, h2, _⟩ := a2
    obtain ⟨x, o, e1, e2⟩ := Always.mem a1 h1
    have h3 : (t, Ev.preCreate c) ∈ old := by
      rw [e1]; exact List.mem_append_right _ (List.mem_cons_of_mem _ e2)
    refine ⟨h2, h1, h3, ?_⟩
    obtain ⟨x, o, e1, a, b, e2, e3⟩ := Always.mem b1 h3
    exact ⟨x ++ (t, .preCreate c) :: a, b, by rw [e1, e2]; simp, e3⟩
  · rintro c rfl; exact b2

/-- C17 fails outside `Clean`: in a child, before its thread list is reset, a signal handler creates thread 2 as an
ignored one.  After the reset the process looks unthreaded, so that thread 2 is taken for the main thread when it
calls pthread_create: pre-create is called, and thread 3 gets init-thread; when that exits, thread 2 gets
fini-thread. -/
theorem C17_child_confused : ∃ s, Reach s ∧ (0, .spawnIgn 2 2 90 91) ∈ own s.g.tr ∧ mainOf s.g.tr = 0 ∧
    (2, .preCreate 3) ∈ own s.g.tr ∧ (2, .spawn 3 3 (.slot 0 0) 80 81 10) ∈ own s.g.tr ∧
    (3, .initThread 1 10) ∈ own s.g.tr ∧ (2, .finiThread 0 0 .handler) ∈ own s.g.tr := by
  obtain ⟨s, hr, hp⟩ := exists_of_run
    (ls := toMain ++ create1 0 70 71 9 ++ C 0 .fork ++ T 0 1 ++ V 0 9 ++ [.fork 0] ++ I 0 ++ C 0 (.ignore true) ++
      T 0 1 ++ C 0 (.create 90 91) ++ T 0 5 ++ C 0 (.ignore false) ++ T 0 1 ++ T 0 8 ++ T 2 1 ++
      C 2 (.create 80 81) ++ T 2 7 ++ V 2 10 ++ T 2 7 ++ begin 3 6 ++ C 3 .exit ++ T 3 11 ++ D 2 ++ T 2 2)
    (p := fun s => decide ((0, .spawnIgn 2 2 90 91) ∈ own s.g.tr ∧ mainOf s.g.tr = 0 ∧
      (2, .preCreate 3) ∈ own s.g.tr ∧ (2, .spawn 3 3 (.slot 0 0) 80 81 10) ∈ own s.g.tr ∧
      (3, .initThread 1 10) ∈ own s.g.tr ∧ (2, .finiThread 0 0 .handler) ∈ own s.g.tr)) (by decide +kernel)
  exact ⟨s, hr, of_decide_eq_true hp⟩

/-- C17, "the start routine still runs": an ignored thread has entered the start routine it was
created with, or that is the next thing it does when the signal handlers above have returned, and
nothing can block it.

Missing: executions in which a signal handler ends the thread before that (pthread_exit), and
threads that belong to another process (the creator forked). -/
theorem C17_start_runs_partial {s : S} (hs : ReachA LetsStart s) {u w c st ar : Nat}
    (h : (w, .spawnIgn c u st ar) ∈ own s.g.tr) :
    (u, .start st ar) ∈ s.g.tr ∨ ∃ a, s.th u = a ++ [.ign st ar] ∧
      (a = [] → s.g.dead = false → ∀ ok v, ∃ s', next s (.step u (.go ok v)) = some s' ∧
        (u, .start st ar) ∈ s'.g.tr) := by
  refine (waits_inv hs u w c st ar h).imp_right (fun hm => ?_)
  obtain ⟨a, b, e1, e2⟩ := shape_mem (shape_inv hs u) hm
  have : b = [] := e2.1 rfl
  subst this
  refine ⟨a, e1, ?_⟩
  rintro rfl hd ok v
  rw [List.nil_append] at e1
  exact ⟨applyRes s u [] (s.g.emit u (.start st ar), .go [.ignApp], none),
    by simp [next, step, e1, hd, fstep, cont], List.mem_cons_self⟩

/-- Main creates thread 1, disables new threads and creates thread 2, which creates thread 3;
main enables new threads again, and for the next one pre-create says to ignore it; at the end main
exits. -/
def ignoring : List Lbl :=
  toMain ++ create1 0 70 71 9 ++ begin 1 5 ++ C 0 (.ignore true) ++ T 0 1 ++
    C 0 (.create 80 81) ++ T 0 5 ++ T 2 1 ++ C 2 (.create 90 91) ++ T 2 5 ++ T 3 1 ++
    C 0 (.ignore false) ++ T 0 1 ++ C 0 (.create 100 101) ++ T 0 6 ++ V 0 1 ++ T 0 1 ++ T 4 1 ++
    C 0 .exit ++ T 0 8 ++ D 1 ++ T 1 3 ++ T 0 6

example : ∃ s, ReachA Clean s ∧ madeBy s.g.tr 2 0 1 80 81 none ∧ (2, .start 80 81) ∈ s.g.tr ∧
    madeBy s.g.tr 3 2 2 90 91 none ∧ (3, .start 90 91) ∈ s.g.tr ∧
    madeBy s.g.tr 4 0 3 100 101 none ∧ (4, .start 100 101) ∈ s.g.tr ∧
    (0, .preCreateRet 3 ignoreData) ∈ s.g.tr ∧ (0, .finiProcess .normal 0) ∈ s.g.tr ∧
    occursBy 1 Ev.isFiniThread s.g.tr = 1 := by
  obtain ⟨s, hr, hp⟩ := exists_of_runA (A := Clean) (ls := ignoring)
    (p := fun s => decide ((0, .spawnIgn 1 2 80 81) ∈ s.g.tr ∧ (2, .start 80 81) ∈ s.g.tr ∧
    (2, .spawnIgn 2 3 90 91) ∈ s.g.tr ∧ (3, .start 90 91) ∈ s.g.tr ∧
    (0, .spawnIgn 3 4 100 101) ∈ s.g.tr ∧ (4, .start 100 101) ∈ s.g.tr ∧
    (0, .preCreateRet 3 ignoreData) ∈ s.g.tr ∧ (0, .finiProcess .normal 0) ∈ s.g.tr ∧
    occursBy 1 Ev.isFiniThread s.g.tr = 1)) (by decide +kernel)
  have := of_decide_eq_true hp
  exact ⟨s, hr, this⟩

instance (s : S) (l : Lbl) : Decidable (LetsStart s l) := by
  unfold LetsStart
  have : ∀ l : List Frame, Decidable (∀ st ar, .ign st ar ∉ l) := fun l =>
    decidable_of_iff (l.all (fun f => match f with | .ign .. => false | _ => true) = true) (by
      rw [List.all_eq_true]
      constructor
      · intro h st ar hm; exact absurd (h _ hm) (by simp)
      · intro h f hm
        cases f <;> first | rfl | exact absurd hm (h _ _))
  split <;> infer_instance

/-- The same in an execution that ends no ignored thread early; thread 4 has not started. -/
example : ∃ s, ReachA LetsStart s ∧ (0, .spawnIgn 1 2 80 81) ∈ own s.g.tr ∧
    (2, .start 80 81) ∉ s.g.tr ∧ s.th 2 = [.ign 80 81] := by
  obtain ⟨s, hr, hp⟩ := exists_of_runA (A := LetsStart)
    (ls := toMain ++ create1 0 70 71 9 ++ C 0 (.ignore true) ++ T 0 1 ++ C 0 (.create 80 81) ++ T 0 5)
    (p := fun s => decide ((0, .spawnIgn 1 2 80 81) ∈ own s.g.tr ∧
      (2, .start 80 81) ∉ s.g.tr ∧ s.th 2 = [.ign 80 81])) (by decide +kernel)
  exact ⟨s, hr, of_decide_eq_true hp⟩

/-- C22, "once": a call of pthread_create calls pre-create and post-create at most once (all
executions). -/
theorem C22_once {s : S} (hs : Reach s) (c : Nat) :
    occurs (Ev.isPreCreate c) s.g.tr ≤ 1 ∧ occurs (Ev.isPostCreate c) s.g.tr ≤ 1 :=
  ⟨occurs_of_oneTok (oneTok_preCreate c hs), occurs_of_oneTok (oneTok_postCreate c hs)⟩

/-- C22, the order, in all executions: a thread that is not ignored is made after pre-create has
returned the value it is made with; post-create comes after the real pthread_create; and a
call of pthread_create returns only after post-create, unless it did not call pre-create (new
threads are disabled) or pre-create said to ignore the thread. -/
theorem C22_paired {s : S} (hs : Reach s) :
    Always (fun old t e =>
      (∀ c u n st ar d, e = .spawn c u n st ar d → (t, .preCreateRet c d) ∈ old) ∧
      (∀ c, e = .spawnFail c → ∃ d, (t, .preCreateRet c d) ∈ old) ∧
      (∀ c d, e = .preCreateRet c d → (t, .preCreate c) ∈ old) ∧
      (∀ c d, e = .postCreate c d →
        (∃ u n st ar d', (t, .spawn c u n st ar d') ∈ old) ∨ (t, .spawnFail c) ∈ old) ∧
      (∀ c, e = .createRet c → (∃ d, (t, .postCreate c d) ∈ old) ∨
        occurs (Ev.isPreCreate c) old = 0 ∨ (t, .preCreateRet c ignoreData) ∈ old)) s.g.tr := by
  refine Always.imp ?_ (Always.and (life_order hs).1.1 (create_inv hs).1)
  rintro old t e ⟨a, b⟩
  refine ⟨?_, ?_, ?_, ?_, ?_⟩
  · rintro c u n st ar d rfl; exact a.2.1
  · rintro c rfl; obtain ⟨d, h, _⟩ := a; exact ⟨d, h⟩
  · rintro c d rfl; exact a
  · rintro c d rfl; exact a
  · rintro c rfl; exact b

/-- Both calls of `three`. -/
example : ∃ s, Reach s ∧ (0, .createRet 0) ∈ s.g.tr ∧ (0, .createRet 1) ∈ s.g.tr ∧
    (0, .postCreate 0 9) ∈ s.g.tr ∧ (0, .preCreateRet 1 10) ∈ s.g.tr ∧
    (0, .spawn 1 2 (.slot 0 1) 80 81 10) ∈ s.g.tr := by
  obtain ⟨s, hr, hp⟩ := exists_of_run (ls := three)
    (p := fun s => decide ((0, .createRet 0) ∈ s.g.tr ∧ (0, .createRet 1) ∈ s.g.tr ∧
    (0, .postCreate 0 9) ∈ s.g.tr ∧ (0, .preCreateRet 1 10) ∈ s.g.tr ∧
    (0, .spawn 1 2 (.slot 0 1) 80 81 10) ∈ s.g.tr)) (by decide +kernel)
  exact ⟨s, hr, of_decide_eq_true hp⟩

/-- C22, "post-create receives the value pre-create returned", fails: pthread_create reads the value
from the new thread's record after the thread exists, and the new thread may have overwritten it with
init-thread's return value. -/
theorem C22_wrong_value : ∃ s, ReachA Clean s ∧ (0, .preCreateRet 0 9) ∈ s.g.tr ∧
    (0, .spawn 0 1 (.slot 0 0) 70 71 9) ∈ s.g.tr ∧ (0, .postCreate 0 5) ∈ s.g.tr := by
  obtain ⟨s, hr, hp⟩ := exists_of_runA (A := Clean)
    (ls := toMain ++ C 0 (.create 70 71) ++ T 0 10 ++ V 0 9 ++ T 0 5 ++ begin 1 5 ++ T 0 1)
    (p := fun s => decide ((0, .preCreateRet 0 9) ∈ s.g.tr ∧
    (0, .spawn 0 1 (.slot 0 0) 70 71 9) ∈ s.g.tr ∧ (0, .postCreate 0 5) ∈ s.g.tr))
    (by decide +kernel)
  exact ⟨s, hr, of_decide_eq_true hp⟩

/-- ... and if the new thread has already ended, it may be the value of a thread that somebody else has
made meanwhile, which has got the record. -/
theorem C22_others_value : ∃ s, ReachA Clean s ∧ (0, .preCreateRet 0 9) ∈ s.g.tr ∧
    (1, .initThreadRet 1 5) ∈ s.g.tr ∧ (2, .preCreateRet 2 12) ∈ s.g.tr ∧
    (2, .spawn 2 3 (.slot 0 0) 90 91 12) ∈ s.g.tr ∧ (0, .postCreate 0 12) ∈ s.g.tr := by
  obtain ⟨s, hr, hp⟩ := exists_of_runA (A := Clean)
    (ls := toMain ++ C 0 (.create 70 71) ++ T 0 10 ++ V 0 9 ++ T 0 5 ++ begin 1 5 ++
      createN 1 80 81 10 ++ begin 2 6 ++ T 1 6 ++ createN 2 90 91 12 ++ T 0 1)
    (p := fun s => decide ((0, .preCreateRet 0 9) ∈ s.g.tr ∧
    (1, .initThreadRet 1 5) ∈ s.g.tr ∧ (2, .preCreateRet 2 12) ∈ s.g.tr ∧
    (2, .spawn 2 3 (.slot 0 0) 90 91 12) ∈ s.g.tr ∧ (0, .postCreate 0 12) ∈ s.g.tr))
    (by decide +kernel)
  exact ⟨s, hr, of_decide_eq_true hp⟩

/-- ... also in a child: a signal handler forks when the real pthread_create has returned, and makes a
thread in the child, which gets the record of the thread that is not there. -/
theorem C22_forked_value : ∃ s, ReachA Clean s ∧ (0, .preCreateRet 0 9) ∈ s.g.tr ∧
    (0, .preCreateRet 2 12) ∈ own s.g.tr ∧ (0, .postCreate 0 12) ∈ own s.g.tr := by
  obtain ⟨s, hr, hp⟩ := exists_of_runA (A := Clean)
    (ls := toMain ++ C 0 (.create 70 71) ++ T 0 10 ++ V 0 9 ++ T 0 5 ++ I 0 ++ C 0 .fork ++ T 0 2 ++
      [.fork 0] ++ T 0 7 ++ C 0 (.create 80 81) ++ T 0 7 ++ V 0 12 ++ T 0 9)
    (p := fun s => decide ((0, .preCreateRet 0 9) ∈ s.g.tr ∧
    (0, .preCreateRet 2 12) ∈ own s.g.tr ∧ (0, .postCreate 0 12) ∈ own s.g.tr))
    (by decide +kernel)
  exact ⟨s, hr, of_decide_eq_true hp⟩

/-- C22, the value: post-create receives what pre-create returned for that call, or, if the call made a
thread whose init-thread has already returned, what that init-thread returned (`C22_wrong_value`),
unless the thread's fini-thread has returned, too (`C22_others_value`).

Missing: that case, executions outside `Clean`, and calls of pthread_create during which the
thread forked (in a signal handler) after the real pthread_create (`C22_forked_value`). -/
theorem C22_value_partial {s : S} (hs : ReachA Clean s) :
    Always (fun old t e => ∀ c d e', e = .postCreate c d → (t, e') ∈ own old →
      e'.isOutcome c = true → (t, .preCreateRet c d) ∈ old ∨
        ∃ u n st ar d' k, (t, .spawn c u n st ar d') ∈ old ∧
          ((u, .initThreadRet k d) ∈ old ∨ (u, .finiThreadRet k) ∈ old))
      s.g.tr := by
  refine Always.imp ?_ (postValue_inv hs)
  rintro old t e h c d e' rfl
  exact h e'

/-- Post-create after a creation that worked and one that failed. -/
example : ∃ s, ReachA Clean s ∧ (0, .postCreate 0 9) ∈ s.g.tr ∧
    (0, .spawn 0 1 (.slot 0 0) 70 71 9) ∈ own s.g.tr ∧ (0, .postCreate 1 10) ∈ s.g.tr ∧
    (0, .spawnFail 1) ∈ own s.g.tr := by
  obtain ⟨s, hr, hp⟩ := exists_of_runA (A := Clean)
    (ls := toMain ++ create1 0 70 71 9 ++ C 0 (.create 80 81) ++ T 0 6 ++ V 0 10 ++ T 0 4 ++ F 0 ++ T 0 1)
    (p := fun s => decide ((0, .postCreate 0 9) ∈ s.g.tr ∧
    (0, .spawn 0 1 (.slot 0 0) 70 71 9) ∈ own s.g.tr ∧ (0, .postCreate 1 10) ∈ s.g.tr ∧
    (0, .spawnFail 1) ∈ own s.g.tr)) (by decide +kernel)
  exact ⟨s, hr, of_decide_eq_true hp⟩

end Libmonitor.Proc
