import Verif.Proc.Block
import Verif.Proc.Sched
/-!
# C89: monitor_block_shootdown keeps fini-thread away
-/

namespace Libmonitor.Proc

/-- C89: in executions of this kind, when fini-thread is called in a thread, and not because this
thread itself ends the process, then the thread has not called monitor_block_shootdown, or has
called monitor_unblock_shootdown since. -/
theorem C89_blocked_partial {s s' : S} {B : Tid → Bool} {l : Lbl} (hs : ReachK Blocking s B)
    (hn : next s l = some s') {new : Hist} (htr : s'.g.tr = new ++ s.g.tr) {t : Tid} {k : Int}
    {d : Data} {src : Src} (he : (t, .finiThread k d src) ∈ new) (hsrc : src ≠ .winner) :
    B t = false := by
  have hI := block_inv hs
  have hm := move_of_next hn
  have same : new ++ s.g.tr = s.g.tr → False := by
    intro h
    rw [List.append_left_eq_self.1 h] at he; cases he
  have one : ∀ {x : Tid × Ev}, x :: s.g.tr = new ++ s.g.tr → x = (t, .finiThread k d src) := by
    intro x h
    have h : [x] ++ s.g.tr = new ++ s.g.tr := h
    rw [← List.append_cancel_right h, List.mem_singleton] at he
    exact he.symm
  cases hm with
  | @go u f rest ok v r hd ht hf =>
    obtain ⟨g', nx, sp⟩ := r
    have hg : (applyRes s u rest (g', nx, sp)).g.tr = g'.tr := by
      rw [applyRes_g]; split <;> rfl
    rw [hg] at htr
    by_cases hfin : ∃ n src, f = .fin0 n src
    · obtain ⟨n, src', e⟩ := hfin
      subst e
      fstep_cases hf
      have := one htr
      injection this with e1 e2
      injection e2 with _ _ e3
      subst e1; subst e3
      exact hI.fin _ _ _ _ ht hsrc
    · exfalso
      obtain ⟨es, h1, h2⟩ := fini_only hf
      rw [h1] at htr
      rw [← List.append_cancel_right htr] at he
      obtain ⟨e, he1, he2⟩ := List.mem_map.1 he
      injection he2 with _ he2
      subst he2
      exact hfin (h2 _ _ _ he1)
  | call a hd ht hf => exact (same htr.symm).elim
  | unwind hd ht hf => exact (same htr.symm).elim
  | deliver hd ht hon hh => exact (same htr.symm).elim
  | interrupt hd ht => exact (same htr.symm).elim
  | fork hd ht => cases one htr
  | realFork hd ht => cases one htr

/-- Thread 1 blocks shootdown, main ends the process and signals; the handler does nothing. -/
def blockedExit : List Lbl :=
  three ++ C 1 (.block true) ++ T 1 1 ++ C 0 .exit ++ T 0 13 ++ D 1 ++ T 1 1

example : ∃ s B, ReachK Blocking s B ∧ B 1 = true ∧ (0, .kill (some 1) none) ∈ s.g.tr ∧
    s.th 1 = [.btApp (.slot 0 0)] := by
  obtain ⟨s, B, h, hp⟩ := exists_of_runK (A := Blocking) (ls := blockedExit)
    (p := fun s B => decide (B 1 = true ∧ (0, .kill (some 1) none) ∈ s.g.tr ∧
      s.th 1 = [.btApp (.slot 0 0)])) (by decide +kernel)
  exact ⟨s, B, h, of_decide_eq_true hp⟩

/-- ... it unblocks, and the next signal brings fini-thread (the step that `C89_blocked_partial` is
about). -/
example : ∃ s B s' l k d, ReachK Blocking s B ∧ next s l = some s' ∧
    s'.g.tr = [(1, .finiThread k d .handler)] ++ s.g.tr ∧ B 1 = false := by
  obtain ⟨s, B, h, hp⟩ := exists_of_runK (A := Blocking)
    (ls := blockedExit ++ C 1 (.block false) ++ T 1 1 ++ D 1 ++ T 1 1)
    (p := fun s B => decide (B 1 = false) &&
      ((next s (.step 1 (.go true 0))).map (fun s' : S =>
        decide (s'.g.tr = [(1, .finiThread 1 5 .handler)] ++ s.g.tr))).getD false)
    (by decide +kernel)
  rw [Bool.and_eq_true] at hp
  cases hn : next s (.step 1 (.go true 0)) with
  | none => rw [hn] at hp; cases hp.2
  | some s' =>
    rw [hn] at hp
    exact ⟨s, B, s', _, 1, 5, h, hn, of_decide_eq_true hp.2, of_decide_eq_true hp.1⟩

/-- The first condition is needed: a created thread that blocks and forks is not blocked in the
child (pthread.c:335-348 gives it main's record), where the shootdown of another thread reaches
it. -/
theorem C89_forked : ∃ s B, ReachK CleanK s B ∧ B 1 = true ∧ mainOf s.g.tr = 1 ∧
    s.g.tr.head? = some (1, .finiThread 0 0 .handler) := by
  obtain ⟨s, B, h, hp⟩ := exists_of_runK (A := CleanK)
    (ls := toMain ++ create1 0 70 71 9 ++ begin 1 5 ++ C 1 (.block true) ++ T 1 1 ++ C 1 .fork ++
      T 1 1 ++ V 1 7 ++ [.fork 1] ++ T 1 7 ++ C 1 (.create 80 81) ++ T 1 15 ++ begin 2 5 ++
      C 2 .exit ++ T 2 10 ++ D 1 ++ T 1 2)
    (p := fun s B => decide (B 1 = true ∧ mainOf s.g.tr = 1 ∧
      s.g.tr.head? = some (1, .finiThread 0 0 .handler))) (by decide +kernel)
  exact ⟨s, B, h, of_decide_eq_true hp⟩

/-- The second condition is needed: in a thread whose record is not yet set (here in a signal
handler at the very beginning of thread 1) monitor_block_shootdown has no effect.  The client
cannot tell: it returns 0, as for success. -/
theorem C89_unknown : (∃ s B, ReachK CleanK s B ∧ B 1 = true ∧
      s.g.tr.head? = some (1, .finiThread 1 5 .handler)) ∧
    ∃ s, Reach s ∧ s.th 1 = [.qBlock true, .app, .bt0 (.slot 0 0)] ∧
      blockAnswer s.g 1 = false := by
  refine ⟨?_, ?_⟩
  · obtain ⟨s, B, h, hp⟩ := exists_of_runK (A := CleanK)
      (ls := toMain ++ create1 0 70 71 9 ++ I 1 ++ C 1 (.block true) ++ T 1 2 ++ begin 1 5 ++
        C 0 .exit ++ T 0 12 ++ D 1 ++ T 1 2)
      (p := fun s B => decide (B 1 = true ∧
        s.g.tr.head? = some (1, .finiThread 1 5 .handler))) (by decide +kernel)
    exact ⟨s, B, h, of_decide_eq_true hp⟩
  · obtain ⟨s, h, hp⟩ := exists_of_run
      (ls := toMain ++ create1 0 70 71 9 ++ I 1 ++ C 1 (.block true))
      (p := fun s => decide (s.th 1 = [.qBlock true, .app, .bt0 (.slot 0 0)] ∧
        blockAnswer s.g 1 = false)) (by decide +kernel)
    exact ⟨s, h, of_decide_eq_true hp⟩

/-- The third condition is needed: the test of tn_block_shootdown and the call of fini-thread are
two steps, and a signal handler in between that blocks (a sample) comes too late. -/
theorem C89_window : ∃ s B, ReachK CleanK s B ∧ B 1 = true ∧
    s.g.tr.head? = some (1, .finiThread 1 5 .handler) := by
  obtain ⟨s, B, h, hp⟩ := exists_of_runK (A := CleanK)
    (ls := three ++ C 0 .exit ++ T 0 12 ++ D 1 ++ T 1 1 ++ I 1 ++ C 1 (.block true) ++ T 1 3)
    (p := fun s B => decide (B 1 = true ∧
      s.g.tr.head? = some (1, .finiThread 1 5 .handler))) (by decide +kernel)
  exact ⟨s, B, h, of_decide_eq_true hp⟩

/-- A thread that ends the process gets fini-thread although it has blocked shootdown: no test is
made at pthread.c:624-630. -/
theorem C89_winner : ∃ s B, ReachK Blocking s B ∧ B 1 = true ∧
    s.g.tr.head? = some (1, .finiThread 1 5 .winner) := by
  obtain ⟨s, B, h, hp⟩ := exists_of_runK (A := Blocking)
    (ls := three ++ C 1 (.block true) ++ T 1 1 ++ C 1 .exit ++ T 1 19)
    (p := fun s B => decide (B 1 = true ∧
      s.g.tr.head? = some (1, .finiThread 1 5 .winner))) (by decide +kernel)
  exact ⟨s, B, h, of_decide_eq_true hp⟩

/-- C89, the answer: monitor_block_shootdown, called in a thread that libmonitor knows, returns 1
exactly when the shootdown has begun, in this process or in one that it was forked from. -/
theorem C89_answer {s : S} (hs : Reach s) {t : Tid} (ht : getTn s.g t ≠ none) :
    blockAnswer s.g t = true ↔ ∃ u, (u, .shootdown) ∈ s.g.tr := by
  unfold blockAnswer
  split
  · contradiction
  · exact inExit_iff hs

example : ∃ s, Reach s ∧ getTn s.g 1 ≠ none ∧ blockAnswer s.g 1 = true := by
  obtain ⟨s, h, hp⟩ := exists_of_run (ls := three ++ C 0 .exit ++ T 0 12)
    (p := fun s => decide (getTn s.g 1 ≠ none ∧ blockAnswer s.g 1 = true)) (by decide +kernel)
  exact ⟨s, h, of_decide_eq_true hp⟩

example : ∃ s, Reach s ∧ getTn s.g 1 ≠ none ∧ blockAnswer s.g 1 = false := by
  obtain ⟨s, h, hp⟩ := exists_of_run (ls := three ++ C 0 .exit ++ T 0 3)
    (p := fun s => decide (getTn s.g 1 ≠ none ∧ blockAnswer s.g 1 = false)) (by decide +kernel)
  exact ⟨s, h, of_decide_eq_true hp⟩

/-- In a child that is forked while its parent is ending, the answer is 1 although the child is
not ending: monitor_in_exit_cleanup is not reset. -/
theorem C89_answer_child : ∃ s, Reach s ∧ startedBy s.g.tr = some false ∧ getTn s.g 1 ≠ none ∧
    blockAnswer s.g 1 = true ∧ ∀ u, (u, .shootdown) ∉ own s.g.tr := by
  obtain ⟨s, h, hp⟩ := exists_of_run
    (ls := three ++ C 0 .exit ++ T 0 12 ++ C 1 .fork ++ T 1 1 ++ V 1 7 ++ [.fork 1] ++ T 1 7)
    (p := fun s => decide (startedBy s.g.tr = some false ∧ getTn s.g 1 ≠ none ∧
      blockAnswer s.g 1 = true ∧ ∀ e ∈ own s.g.tr, e.2 ≠ .shootdown)) (by decide +kernel)
  obtain ⟨h1, h2, h3, h4⟩ := of_decide_eq_true hp
  exact ⟨s, h, h1, h2, h3, fun u hu => h4 _ hu rfl⟩

end Libmonitor.Proc
