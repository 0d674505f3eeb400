import Verif.Proc.CancelInv
import Verif.Proc.Sched
/-!
# C90: cancellation of threads
-/

namespace Libmonitor.Proc

/-- C90, first part: inside the exit cleanup of the threads, and inside fini-thread on its behalf
(in whatever signal handler on top of it), the thread cannot be cancelled. -/
theorem C90_protected {x : SC} (hx : ReachC Settled x) {t : Tid} {f : Frame}
    (hf : f ∈ x.s.th t) (hg : f.guarded = true) :
    (x.c t).off = true ∧ nextC x (.cancel t) = none := by
  obtain ⟨a, ha⟩ := reachQ_of hx
  obtain ⟨b, h1, -, h3⟩ := (cinv (fun _ _ h => h) ha).ci t (List.ne_nil_of_mem hf)
  have hpos : 0 < (x.s.th t).countP Frame.guarded := List.countP_pos_iff.2 ⟨f, hf, hg⟩
  have hoff : (x.c t).off = true := by
    refine good_off h1 ?_
    intro e
    rw [e] at h3
    have : 0 = (x.s.th t).countP Frame.guarded := h3
    omega
  refine ⟨hoff, ?_⟩
  show (if _ then _ else _) = none
  rw [if_neg]
  intro h
  rw [hoff] at h
  cases h.2.1

/-- C90, second part: outside, the state is the one that the thread's own code has asked for (unless
the thread is being ended). -/
theorem C90_restored {x : SC} {a : Tid → Bool} (hx : ReachQ Settled x a) {t : Tid}
    (ht : x.s.th t ≠ []) (hg : ∀ f ∈ x.s.th t, f.guarded = false)
    (he : (x.c t).ending = false) : (x.c t).off = a t := by
  obtain ⟨b, h1, h2, h3⟩ := (cinv (fun _ _ h => h) hx).ci t ht
  have hz : (x.s.th t).countP Frame.guarded = 0 := by
    rw [List.countP_eq_zero]
    intro f hf
    simp [hg f hf]
  rw [hz] at h3
  rw [List.length_eq_zero_iff.1 h3] at h1
  exact h1.trans (h2 he)

/-- C90, third part: a guarded call, once begun, is not left before its end: whatever step is made,
by this thread or another one, either the call is still there, or it was the innermost one and has
returned to its caller, or another thread has forked (and in the child there is only that one). -/
theorem C90_completes {x x' : SC} (hx : ReachC Steady x) {t : Tid} {f : Frame}
    {pre rest : List Frame} (ht : x.s.th t = pre ++ f :: rest) (hg : f.guarded = true) {l : LblC}
    (hl : Steady x l) (hn : nextC x l = some x') :
    (∃ pre' f', x'.s.th t = pre' ++ f' :: rest ∧ f'.guarded = true) ∨
    (pre = [] ∧ x'.s.th t = rest ∧ ∃ ok v, l = .lib (.step t (.go ok v))) ∨
    (x'.s.th t = [] ∧ ∃ u, u ≠ t ∧ l = .lib (.fork u)) := by
  have hx' : ReachC Settled x := reachC_mono (fun _ _ h => h.1) hx
  obtain ⟨a, ha⟩ := reachQ_of hx'
  have hI := cinv (fun _ _ h => h) ha
  have hmem : f ∈ x.s.th t := by rw [ht]; simp
  have hlt : ¬ x.s.g.nextTid ≤ t := by
    intro h
    rw [(hI.fresh t h).1] at hmem; cases hmem
  have same : ∀ {y : SC}, y.s.th t = x.s.th t →
      ∃ pre' f', y.s.th t = pre' ++ f' :: rest ∧ f'.guarded = true :=
    fun e => ⟨pre, f, e.trans ht, hg⟩
  have hm := moveC_of_next hn
  cases hm with
  | @set u f' rest' b hu => exact Or.inl ⟨pre, f, ht, hg⟩
  | @cancel u f' rest' hu ho he =>
    by_cases e : u = t
    · subst e
      rw [(C90_protected hx' hmem hg).2] at hn; cases hn
    · exact Or.inl (same (setTh_ne _ _ (fun h => e h.symm)))
  | @unwind u f' rest' hu =>
    by_cases e : u = t
    · subst e
      have := hl.2 f hmem
      rw [hg] at this; cases this
    · exact Or.inl (same (setTh_ne _ _ (fun h => e h.symm)))
  | @push l u f' rest' pre' hu hp =>
    by_cases e : u = t
    · subst e
      refine Or.inl ⟨pre' ++ pre, f, ?_, hg⟩
      show setTh x.s.th u _ u = _
      rw [setTh_self, ← hu, ht, List.append_assoc]
    · exact Or.inl (same (setTh_ne _ _ (fun h => e h.symm)))
  | @fork u f' rest' pre' g' hu hf' hp hgn =>
    by_cases e : u = t
    · subst e
      rw [ht] at hu
      cases pre with
      | nil =>
        injection hu with e1 _
        subst e1
        rw [hg] at hf'; cases hf'
      | cons p pre =>
        injection hu with _ e2
        have e2 : pre ++ f :: rest = rest' := e2
        refine Or.inl ⟨pre' ++ pre, f, ?_, hg⟩
        show setTh (fun _ => []) u _ u = _
        rw [setTh_self, ← e2, List.append_assoc]
    · exact Or.inr (Or.inr ⟨setTh_ne (fun _ => []) _ (fun h => e h.symm), u, e, rfl⟩)
  | @go u f' rest' ok v g' nx sp hu hf =>
    by_cases e : u = t
    · subst e
      rcases applyRes_same (s := x.s) (rest := rest') (g := g') (nx := nx) (sp := sp)
          (t := u) (fun h => hlt (by omega)) with ⟨l, hl', h⟩ | ⟨hl', h⟩ | ⟨hl', h⟩
      · subst hl'
        rw [ht] at hu
        cases pre with
        | nil =>
          injection hu with e1 e2
          subst e1; subst e2
          rcases csStep_cases hf (x.c u) with ⟨h1, -⟩ | ⟨-, h2, -⟩ | ⟨-, ⟨f', h2, h2'⟩, -⟩ | ⟨h1, -⟩
          · rw [hg] at h1; cases h1
          · subst h2; exact Or.inr (Or.inl ⟨rfl, h, ok, v, rfl⟩)
          · subst h2; exact Or.inl ⟨[], f', h, h2'⟩
          · rw [hg] at h1; cases h1
        | cons p pre =>
          injection hu with _ e2
          have e2 : pre ++ f :: rest = rest' := e2
          refine Or.inl ⟨l ++ pre, f, ?_, hg⟩
          rw [List.append_assoc, e2]; exact h
      · exfalso
        subst hl'
        have hpx : f' = .px0 ∨ f' = .px1 := by
          cases f' <;> first
            | exact Or.inl rfl
            | exact Or.inr rfl
            | (exfalso; fstep_cases hf; done)
        have := hl.2 f' (by rw [hu]; rfl) hpx f hmem
        rw [hg] at this; cases this
      · exact Or.inl (same h)
    · have hut : t ≠ u := fun h => e h.symm
      rcases applyRes_elsewhere (s := x.s) (rest := rest') (g := g') (nx := nx) (sp := sp) hut with
        h | ⟨e', -⟩
      · exact Or.inl (same h)
      · exact absurd (Nat.le_of_eq e'.symm) hlt

/-- Schedules of `Proc.Model`. -/
def L (ls : List Lbl) : List LblC := ls.map .lib

/-- Main ends the process; thread 1, which has disabled cancellation, and thread 2, which has not, are
in fini-thread, called by the handler. -/
def cancelExit : List LblC :=
  L three ++ [.set 1 true] ++ L (C 0 .exit ++ T 0 14 ++ D 1 ++ T 1 2 ++ D 2 ++ T 2 2)

example : ∃ x, ReachC Steady x ∧ ∃ u f, f ∈ x.s.th u ∧ f.guarded = true ∧ u = 0 := by
  obtain ⟨x, a, h, hp⟩ := exists_of_runQ (A := Steady) (ls := cancelExit)
    (p := fun x _ => (x.s.th 0).any Frame.guarded) (by decide +kernel)
  obtain ⟨f, hf, hg⟩ := List.any_eq_true.1 hp
  exact ⟨x, reachC_of h, 0, f, hf, hg, rfl⟩

/-- ... (a case of `C90_completes`) a signal handler runs on top of fini-thread in thread 1. -/
example : ∃ x pre f rest, ReachC Steady x ∧ x.s.th 1 = pre ++ f :: rest ∧ f.guarded = true ∧
    pre ≠ [] ∧ Steady x (.lib (.step 1 (.go true 0))) ∧ nextC x (.cancel 1) = none ∧
    (nextC x (.lib (.step 1 (.go true 0)))).isSome = true := by
  obtain ⟨x, a, h, hp⟩ := exists_of_runQ (A := Steady) (ls := cancelExit ++ L (I 1))
    (p := fun x _ => decide (x.s.th 1 = [.app] ++ [.finCb (.slot 0 0) .handler 1,
      .btApp (.slot 0 0)] ∧ Steady x (.lib (.step 1 (.go true 0))) ∧
      (nextC x (.lib (.step 1 (.go true 0)))).isSome = true)) (by decide +kernel)
  obtain ⟨h1, h2, h3⟩ := of_decide_eq_true hp
  refine ⟨x, _, _, _, reachC_of h, h1, rfl, List.cons_ne_nil _ _, h2, ?_, h3⟩
  exact (C90_protected (reachC_mono (fun _ _ h => h.1) (reachC_of h))
    (f := .finCb (.slot 0 0) .handler 1) (by rw [h1]; simp) rfl).2

/-- ... both return; cancellation is off in thread 1 and on in thread 2, as they have asked for, and
thread 2 can be cancelled. -/
example : ∃ x a, ReachQ Steady x a ∧ (1, .finiThreadRet 1) ∈ x.s.g.tr ∧
    (2, .finiThreadRet 2) ∈ x.s.g.tr ∧ x.s.th 1 = [.btApp (.slot 0 0)] ∧
    x.s.th 2 = [.btApp (.slot 0 1)] ∧ (x.c 1).off = true ∧ a 1 = true ∧ (x.c 2).off = false ∧
    a 2 = false ∧ (nextC x (.cancel 2)).isSome = true := by
  obtain ⟨x, a, h, hp⟩ := exists_of_runQ (A := Steady) (ls := cancelExit ++ L (T 1 1 ++ T 2 1))
    (p := fun x a => decide ((1, .finiThreadRet 1) ∈ x.s.g.tr ∧
      (2, .finiThreadRet 2) ∈ x.s.g.tr ∧ x.s.th 1 = [.btApp (.slot 0 0)] ∧
      x.s.th 2 = [.btApp (.slot 0 1)] ∧ (x.c 1).off = true ∧ a 1 = true ∧ (x.c 2).off = false ∧
      a 2 = false ∧ (nextC x (.cancel 2)).isSome = true)) (by decide +kernel)
  exact ⟨x, a, h, of_decide_eq_true hp⟩

/-- One thread has been created; main and it are running. -/
def twoRun : List Lbl := toMain ++ create1 0 70 71 9 ++ begin 1 5

/-- Calls of fini-thread that are not protected: in the cleanup routine of a thread that ends
(pthread.c:928-932), here by returning from its start routine.  If the thread is cancelled in it, its
record stays in the list, with fini-thread begun and not ended.  When main calls exit, its loop
(pthread.c:568-618) never ends, and nobody is left that it waits for. -/
theorem C90_cleanup : ∃ x, ReachC Steady x ∧ x.s.th 1 = [] ∧ (∀ u, ¬ waitsFor x.s 0 u) ∧
    ∀ w : List (Bool × Nat), ∃ s', runG x.s 0 w = some s' ∧ top s' 0 Frame.polls := by
  obtain ⟨x, a, h, hp⟩ := exists_of_runQ (A := Steady)
    (ls := L (twoRun ++ T 1 3) ++ [.cancel 1] ++ L (T 1 1 ++ C 0 .exit ++ T 0 8))
    (p := fun x _ => decide (x.s.th 1 = [] ∧
      (x.s.th 0 = [.sdScan none [.slot 0 0] 0 0, .epFini0 .normal, .xExit, .mainApp] ∧
      x.s.g.dead = false ∧ x.s.g.list = [.slot 0 0] ∧ awaited x.s.g 0 (.slot 0 0) = true) ∧
      ∀ u, u < x.s.g.nextTid → ∀ f ∈ x.s.th u, f.inLock = false ∧ f.inFini = none)) (by decide +kernel)
  obtain ⟨h1, ⟨h2, h3, h4, h5⟩, h6⟩ := of_decide_eq_true hp
  refine ⟨x, reachC_of h, h1, waitsNobody (reachC_mono (fun _ _ h => h.1) (reachC_of h)) h6 ?_, ?_⟩
  · rw [h2]; intro h; cases h
  intro w
  exact pollsOn w h2 (Or.inl rfl) h3 h4 h5

/-- The thread that has won the race to end the process is not protected in begin-process-exit
(main.c:318): if it is cancelled there, the threads that end the process later wait for ever at
main.c:336-339. -/
theorem C90_begin_exit : ∃ x, ReachC Steady x ∧ x.s.th 1 = [] ∧ blocked x.s 0 ∧
    ∀ u, ¬ waitsFor x.s 0 u := by
  obtain ⟨x, a, h, hp⟩ := exists_of_runQ (A := Steady)
    (ls := L (twoRun ++ C 1 .exit ++ T 1 3) ++ [.cancel 1] ++ L (T 1 6 ++ C 0 .exit ++ T 0 2))
    (p := fun x _ => decide (x.s.th 1 = [] ∧ (x.s.th 0 = [.epWait .normal, .xExit, .mainApp] ∧
      x.s.g.finiProcDone = false) ∧
      ∀ u, u < x.s.g.nextTid → ∀ f ∈ x.s.th u,
        (f.inLock = false ∧ f.inFini = none) ∧ f.inEnd = false)) (by decide +kernel)
  obtain ⟨h1, ⟨h2, h3⟩, h4⟩ := of_decide_eq_true hp
  refine ⟨x, reachC_of h, h1, Or.inr (Or.inl ⟨⟨.epWait .normal, ?_, rfl⟩, h3⟩),
    waitsNobody (reachC_mono (fun _ _ h => h.1) (reachC_of h))
      (fun u hu f hf => (h4 u hu f hf).1) (fun _ u hu f hf => (h4 u hu f hf).2)⟩
  rw [h2]; rfl

/-- The condition `Settled` is needed: a client that enables cancellation inside fini-thread can be
cancelled there. -/
theorem C90_enabled_inside : ∃ x f, ReachC (fun _ _ => True) x ∧ f ∈ x.s.th 1 ∧
    f.guarded = true ∧ (nextC x (.cancel 1)).isSome = true := by
  obtain ⟨x, a, h, hp⟩ := exists_of_runQ (A := fun _ _ => True)
    (ls := L (twoRun ++ C 0 .exit ++ T 0 8 ++ D 1 ++ T 1 2) ++ [.set 1 false])
    (p := fun x _ => decide ((x.s.th 1).head? = some (.finCb (.slot 0 0) .handler 1)) &&
      (nextC x (.cancel 1)).isSome) (by decide +kernel)
  rw [Bool.and_eq_true] at hp
  exact ⟨x, _, reachC_of h, List.mem_of_mem_head? (of_decide_eq_true hp.1), rfl, hp.2⟩

/-- ... and a client that calls pthread_exit there leaves the call unfinished. -/
theorem C90_exit_inside : ∃ x x' f, ReachC Settled x ∧ x.s.th 1 = [f, .btApp (.slot 0 0)] ∧
    f.guarded = true ∧ nextC x (.lib (.step 1 .unwind)) = some x' ∧
    x'.s.th 1 = [.cl0 (.slot 0 0), .tdtor] ∧ awaited x'.s.g 0 (.slot 0 0) = true := by
  obtain ⟨x, a, h, hp⟩ := exists_of_runQ (A := Settled)
    (ls := L (twoRun ++ C 0 .exit ++ T 0 8 ++ D 1 ++ T 1 2))
    (p := fun x _ => decide (x.s.th 1 = [.finCb (.slot 0 0) .handler 1, .btApp (.slot 0 0)]) &&
      ((nextC x (.lib (.step 1 .unwind))).map (fun x' : SC =>
        decide (x'.s.th 1 = [.cl0 (.slot 0 0), .tdtor] ∧
          awaited x'.s.g 0 (.slot 0 0) = true))).getD false) (by decide +kernel)
  rw [Bool.and_eq_true] at hp
  cases hn : nextC x (.lib (.step 1 .unwind)) with
  | none => rw [hn] at hp; cases hp.2
  | some x' =>
    rw [hn] at hp
    exact ⟨x, x', _, reachC_of h, of_decide_eq_true hp.1, rfl, hn, of_decide_eq_true hp.2⟩

end Libmonitor.Proc
