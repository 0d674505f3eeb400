import Verif.Proc.BroadInv
import Verif.Proc.Sched
/-!
# C18: monitor_broadcast_signal
-/

namespace Libmonitor.Proc

/-- C18: no step of a call of monitor_broadcast_signal waits, and the call ends: each step returns
or leaves fewer steps to make (at most twice the length of the list and three).  In every state whatsoever,
also while another thread, or a call that this thread was in when a signal arrived, holds the lock. -/
theorem C18_never_blocks {s : S} (hd : s.g.dead = false) {t : Tid} {f : Frame} {rest : List Frame}
    (ht : s.th t = f :: rest)
    (hf : (∃ sig, f = .br0 sig) ∨ (∃ sig todo, f = .br1 sig todo) ∨
      (∃ sig n todo, f = .brKill sig n todo) ∨ ∃ sig, f = .br2 sig)
    (ok : Bool) (v : Nat) :
    ∃ s', next s (.step t (.go ok v)) = some s' ∧ (s'.th t = rest ∨
      ∃ f', s'.th t = f' :: rest ∧
        ((∃ sig todo, f' = .br1 sig todo) ∨ (∃ sig n todo, f' = .brKill sig n todo) ∨
          ∃ sig, f' = .br2 sig) ∧
        brLeft s.g.list.length f' < brLeft s.g.list.length f) := by
  have key : ∃ g' l, fstep s.g t ok v f = some (g', .go l, none) ∧ (l = [] ∨
      ∃ f', l = [f'] ∧ ((∃ sig todo, f' = .br1 sig todo) ∨ (∃ sig n todo, f' = .brKill sig n todo) ∨
          ∃ sig, f' = .br2 sig) ∧
        brLeft s.g.list.length f' < brLeft s.g.list.length f) := by
    rcases hf with ⟨sig, e⟩ | ⟨sig, todo, e⟩ | ⟨sig, n, todo, e⟩ | ⟨sig, e⟩ <;> subst e
    · simp only [fstep, cont]
      split
      · split
        · exact ⟨_, _, rfl, Or.inl rfl⟩
        · exact ⟨_, _, rfl, Or.inr ⟨_, rfl, Or.inl ⟨_, _, rfl⟩, by simp [brLeft, G.emit]⟩⟩
      · exact ⟨_, _, rfl, Or.inl rfl⟩
    · cases todo with
      | nil =>
        simp only [fstep, cont]
        split
        · exact ⟨_, _, rfl, Or.inr ⟨_, rfl, Or.inr (Or.inr ⟨_, rfl⟩), by simp [brLeft]⟩⟩
        · exact ⟨_, _, rfl, Or.inr ⟨_, rfl, Or.inr (Or.inr ⟨_, rfl⟩), by simp [brLeft]⟩⟩
      | cons n todo =>
        simp only [fstep, cont]
        split
        · exact ⟨_, _, rfl, Or.inr ⟨_, rfl, Or.inr (Or.inl ⟨_, _, _, rfl⟩), by simp [brLeft]; omega⟩⟩
        · exact ⟨_, _, rfl, Or.inr ⟨_, rfl, Or.inl ⟨_, _, rfl⟩, by simp [brLeft]⟩⟩
    · exact ⟨_, _, rfl, Or.inr ⟨_, rfl, Or.inl ⟨_, _, rfl⟩, by simp [brLeft]⟩⟩
    · exact ⟨_, _, rfl, Or.inl rfl⟩
  obtain ⟨g', l, h1, h2⟩ := key
  refine ⟨{ g := g', th := setTh s.th t (l ++ rest) }, ?_, ?_⟩
  · simp only [next, step, hd, Bool.false_eq_true, if_false, ht, h1, Option.map_some, applyRes]
  · rcases h2 with e | ⟨f', e, h3⟩
    · subst e
      exact Or.inl (setTh_self _ _ _)
    · subst e
      exact Or.inr ⟨f', setTh_self _ _ _, h3⟩

/-- Main calls monitor_broadcast_signal in a signal handler that interrupted it in pthread_create,
where it holds the lock. -/
example : ∃ s, Reach s ∧ s.g.lock = true ∧ s.g.hasUsed = true ∧ s.g.dead = false ∧
    s.th 0 = [.br0 7, .app, .mk1 1 .main 90 91 11, .mainApp] := by
  obtain ⟨s, hr, hp⟩ := exists_of_run
    (ls := toMain ++ create1 0 70 71 9 ++ C 0 (.create 90 91) ++ T 0 6 ++ V 0 11 ++ T 0 1 ++ I 0 ++
      C 0 (.broadcast 7))
    (p := fun s => decide (s.g.lock = true ∧ s.g.hasUsed = true ∧ s.g.dead = false ∧
      s.th 0 = [.br0 7, .app, .mk1 1 .main 90 91 11, .mainApp])) (by decide +kernel)
  exact ⟨s, hr, of_decide_eq_true hp⟩

/-- C18: the call reports failure exactly if the list is in use and its lock is taken, and then at
once, without sending anything. -/
theorem C18_fails_if_locked {s s' : S} {t : Tid} {sig : Nat} {rest : List Frame} {ok : Bool}
    {v : Nat} (ht : s.th t = .br0 sig :: rest) (hn : next s (.step t (.go ok v)) = some s') :
    (s'.g.tr = (t, .brRet sig false) :: (t, .brCall sig) :: s.g.tr ∧ s'.th t = rest) ↔
      s.g.hasUsed = true ∧ s.g.lock = true := by
  cases hm : move_of_next hn with
  | @go _ f rest' ok v r hd ht' hf =>
    rw [ht] at ht'
    injection ht' with e1 e2
    subst e1; subst e2
    simp only [fstep, cont] at hf
    split at hf
    · rename_i hu
      split at hf
      · rename_i hl
        injection hf with hf
        subst hf
        refine ⟨fun _ => ⟨hu, hl⟩, fun _ => ⟨rfl, ?_⟩⟩
        exact setTh_self _ _ _
      · rename_i hl
        injection hf with hf
        subst hf
        refine ⟨fun h => ?_, fun h => absurd h.2 hl⟩
        have h := h.1
        simp [applyRes, G.emit] at h
    · rename_i hu
      injection hf with hf
      subst hf
      refine ⟨fun h => ?_, fun h => absurd h.1 hu⟩
      have h := h.1
      simp [applyRes, G.emit] at h

/-- C18: no call of monitor_broadcast_signal signals the thread that made it, if the call was made in
this process (always so if the process was not made by fork).

Missing: executions outside `Clean`, and calls during which the process forks; the claim fails there
(`C18_caller_after_fork`). -/
theorem C18_not_caller_partial {s : S} (hs : ReachA Clean s) :
    Always (fun old t e => ∀ tgt sig, e = .kill tgt (some sig) →
      startedBy old = none ∨ callOf t 0 (own old) ≠ none → tgt ≠ some t) s.g.tr := by
  refine glob_inv (A := Clean) (GI := fun g => Always (fun old t e => ∀ tgt sig,
    e = .kill tgt (some sig) → startedBy old = none ∨ callOf t 0 (own old) ≠ none →
      tgt ≠ some t) g.tr) trivial ?_ (fun _ h => h) ?_ hs
  · intro s t f rest ok v g' nx sp hr _ ht hG h
    have hft : f ∈ s.th t := by rw [ht]; exact List.mem_cons_self
    have hB := (broad_inv hr).2 t f hft
    clear hft ht
    cases f <;> fstep_cases h <;> first
      | exact hG
      | (refine ⟨fun _ _ e => ?_, hG⟩; cases e; done)
      | (refine ⟨fun _ _ e => ?_, fun _ _ e => ?_, hG⟩ <;> cases e; done)
      | (simp only [G.emit, G.upd, resetList_tr]; refine ⟨fun _ _ e => ?_, hG⟩; cases e; done)
      | skip
    · rename_i hne
      refine ⟨fun tgt sig e _ => ?_, hG⟩
      injection e with e _
      rw [← e]; exact hne
    · rename_i n todo
      refine ⟨fun tgt sig e hc => ?_, hG⟩
      injection e with e _
      rw [← e]
      have hc : callOf t 0 (own s.g.tr) ≠ none := by
        rcases hc with hc | hc
        · rw [own_started hc]; exact hB.1
        · exact hc
      cases hc2 : callOf t 0 (own s.g.tr) with
      | none => exact absurd hc2 hc
      | some x =>
        obtain ⟨b1, b2, b3⟩ := hB.2 x.1 x.2 hc2
        by_cases e : n = .main
        · subst e
          have hm0 : (s.g.nodes .main).self = some (mainOf s.g.tr) :=
            ((tsd_inv hr).1.2 b1.used (born_of_call hc2)).1
          rw [hm0]
          intro h
          injection h with h
          exact b2 rfl h.symm
        · exact b3 e
  · intro s t real _ hG
    exact ⟨fun _ _ e => (by cases e), hG⟩

/-- Thread 1 of three signals the others. -/
example : ∃ s, ReachA Clean s ∧ (1, .kill (some 2) (some 7)) ∈ s.g.tr ∧
    (1, .kill (some 0) (some 7)) ∈ s.g.tr ∧ startedBy s.g.tr = none := by
  obtain ⟨s, hr, hp⟩ := exists_of_runA (A := Clean) (ls := three ++ C 1 (.broadcast 7) ++ T 1 6)
    (p := fun s => decide ((1, .kill (some 2) (some 7)) ∈ s.g.tr ∧
      (1, .kill (some 0) (some 7)) ∈ s.g.tr ∧ startedBy s.g.tr = none)) (by decide +kernel)
  exact ⟨s, hr, of_decide_eq_true hp⟩

/-- Thread 1 is in exit cleanup and has put main on the list.  Thread 2 calls
monitor_broadcast_signal and has decided to signal main; a signal handler of its own forks.  In the child
thread 2 is main, creates a thread that the client tells to ignore, and returns to the interrupted call: it signals itself. -/
theorem C18_caller_after_fork : ∃ s, ReachA Clean s ∧
    (2, .kill (some 2) (some 7)) ∈ own s.g.tr := by
  obtain ⟨s, hr, hp⟩ := exists_of_runA (A := Clean)
    (ls := three ++ C 1 .exit ++ T 1 8 ++ C 2 (.broadcast 7) ++ T 2 2 ++ I 2 ++ C 2 .fork ++ T 2 1 ++
      V 2 9 ++ [.fork 2] ++ T 2 5 ++ V 2 8 ++ T 2 1 ++ C 2 (.create 90 91) ++ T 2 7 ++ V 2 1 ++
      T 2 3)
    (p := fun s => decide ((2, .kill (some 2) (some 7)) ∈ own s.g.tr)) (by decide +kernel)
  exact ⟨s, hr, of_decide_eq_true hp⟩

/-- C18: what a call that reports success has sent (see `brSpec`): every other registered thread that
was in its start routine when the call was made and has not entered fini-thread when it returns got
the signal exactly once, and so did the initial thread; nobody else.

Missing: the initial thread may get it twice when exit cleanup has begun
(`C18_main_twice`); executions outside `Clean`; calls during which the process forks. -/
theorem C18_sent_partial {s : S} (hs : ReachA Clean s) : Always brSpec s.g.tr :=
  (broad_inv hs).1

/-- Thread 1 of three signals the others. -/
example : ∃ s b old, ReachA Clean s ∧ s.g.tr = (1, .brRet 7 true) :: old ∧
    callOf 1 0 (own old) = some ([some 0, some 2], b) ∧ (2, .start 80 81) ∈ b ∧
    startedBy old = none ∧ mainOf old = 0 := by
  obtain ⟨s, hr, hp⟩ := exists_of_runA (A := Clean) (ls := three ++ C 1 (.broadcast 7) ++ T 1 6)
    (p := fun s => decide (s.g.tr.head? = some (1, .brRet 7 true) ∧
      ((callOf 1 0 (own s.g.tr.tail)).map (fun x => decide (x.1 = [some 0, some 2] ∧
        (2, .start 80 81) ∈ x.2))) = some true ∧
      startedBy s.g.tr.tail = none ∧ mainOf s.g.tr.tail = 0)) (by decide +kernel)
  obtain ⟨h1, h2, h3, h4⟩ := of_decide_eq_true hp
  cases e : s.g.tr with
  | nil => rw [e] at h1; cases h1
  | cons x old =>
    rw [e] at h1 h2 h3 h4
    simp only [List.head?_cons, Option.some.injEq] at h1
    subst h1
    simp only [List.tail_cons] at h2 h3 h4
    cases e2 : callOf 1 0 (own old) with
    | none => rw [e2] at h2; cases h2
    | some y =>
      rw [e2] at h2
      simp only [Option.map_some, Option.some.injEq, decide_eq_true_eq] at h2
      exact ⟨s, y.2, old, hr, e, by rw [e2, ← h2.1], h2.2, h3, h4⟩

/-- C18 fails during exit cleanup: thread 1 has begun it, which puts main on the list; then thread 2
calls monitor_broadcast_signal, and main gets the signal twice: as an element of the list, and as
main. -/
theorem C18_main_twice : ∃ s b old, ReachA Clean s ∧ s.g.tr = (2, .brRet 7 true) :: old ∧
    callOf 2 0 (own old) = some ([some 0, some 1, some 0], b) := by
  obtain ⟨s, hr, hp⟩ := exists_of_runA (A := Clean)
    (ls := three ++ C 1 .exit ++ T 1 8 ++ C 2 (.broadcast 7) ++ T 2 8)
    (p := fun s => decide (s.g.tr.head? = some (2, .brRet 7 true) ∧
      ((callOf 2 0 (own s.g.tr.tail)).map (fun x => decide (x.1 = [some 0, some 1, some 0]))) =
        some true)) (by decide +kernel)
  obtain ⟨h1, h2⟩ := of_decide_eq_true hp
  cases e : s.g.tr with
  | nil => rw [e] at h1; cases h1
  | cons x old =>
    rw [e] at h1 h2
    simp only [List.head?_cons, Option.some.injEq] at h1
    subst h1
    simp only [List.tail_cons] at h2
    cases e2 : callOf 2 0 (own old) with
    | none => rw [e2] at h2; cases h2
    | some y =>
      rw [e2] at h2
      simp only [Option.map_some, Option.some.injEq, decide_eq_true_eq] at h2
      exact ⟨s, y.2, old, hr, e, by rw [e2, ← h2]⟩

end Libmonitor.Proc
