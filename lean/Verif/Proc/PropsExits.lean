import Verif.Proc.Exits
/-!
# C72: exit ends the process, after fini-process

C01 to C03 say what is not to happen in the race of exiting threads.  Here: what does happen.
-/

namespace Libmonitor.Proc

/-- C72, first part: a process in which a thread has called exit, _exit, returned from main, or is
handling a deadly signal, comes to its end, whatever the interleaving with other threads that exit,
create threads, broadcast, or end.

Missing: executions outside `Orderly` (see C58), and those in which threads go on calling. -/
theorem C72_ends_partial {σ : Nat → S} {act : Nat → Act} (R : FairRun σ act) {i : Nat} {u : Tid}
    (he : exiting (σ i) u) : ∃ k, (σ k).g.dead = true := by
  apply Classical.byContradiction
  intro hno
  have hd : ∀ k, (σ k).g.dead = false := fun k => by
    cases h : (σ k).g.dead with
    | false => rfl
    | true => exact absurd ⟨k, h⟩ hno
  obtain ⟨N, h⟩ := C58_rest_partial R
  obtain ⟨⟨f, hf, _⟩, _⟩ := R.exiting hd (Nat.le_max_left i N) he
  rcases h _ (Nat.le_max_right i N) with h | h
  · rw [hd] at h; cases h
  · rw [h u] at hf; cases hf

/-- C72: and when it ends, fini-process has been called and has returned, or the process was ended by
other means than the exit functions.

Missing: as above; executions outside `Clean`; and processes made by fork after exit processing had
begun in the parent (see C08). -/
theorem C72_exit_partial {σ : Nat → S} {act : Nat → Act} (R : CleanRun σ act) {i : Nat} {u : Tid}
    (hd : (σ i).g.dead = false) (he : exiting (σ i) u) (hn : notInherited (σ i).g.tr) :
    ∃ k, (σ k).g.dead = true ∧ (finiDelivered (σ k).g.tr ∨ abruptEnd σ act) := by
  obtain ⟨k, hk⟩ := C72_ends_partial R.fair he
  exact ⟨k, hk, R.ends hd hk hn⟩

/-- C72: once begin-process-exit has been called, fini-process is called, too, and returns, even if
the process goes on (after an exec that fails), unless the process is ended by other means.
Missing: as above. -/
theorem C72_fini_partial {σ : Nat → S} {act : Nat → Act} (R : CleanRun σ act) {i : Nat} {t : Tid}
    {how : How} (hd : (σ i).g.dead = false) (hb : (t, .beginExit how) ∈ own (σ i).g.tr) :
    ∃ k, finiDelivered (σ k).g.tr ∨ abruptEnd σ act := by
  obtain ⟨N, h⟩ := C58_rest_partial R.fair
  refine ⟨max i N, ?_⟩
  have hi := Nat.le_max_left i N
  rcases h _ (Nat.le_max_right i N) with h | h
  · exact R.ends hd h (not_inherited_of (R.reach i) hb)
  · left
    apply Classical.byContradiction
    intro hnd
    obtain ⟨w, f, hf, _⟩ := mid_inv (orderly_of (R.reach _))
      ⟨⟨t, how, R.event hi hb⟩, fun t how h => hnd ⟨t, how, h⟩⟩
    rw [h w] at hf; cases hf

/-! ## Executions -/

/-- The actions are clean. -/
def cleanBy (s : S) : List (Tid × Bool × Nat) → Bool
  | [] => true
  | (u, ok, v) :: l => decide (Clean s (.step u (.go ok v))) &&
      ((next s (.step u (.go ok v))).map (cleanBy · l)).getD true

theorem clean_of_list {s : S} {l : List (Tid × Bool × Nat)} (hs : ReachA CleanOrderly s)
    (h : endsBy s l = true) (hc : cleanBy s l = true) :
    ∃ σ act, CleanRun σ act ∧ σ 0 = s ∧ (σ l.length).g.dead = true ∧ ∀ i, act i = l[i]? := by
  obtain ⟨σ, act, R, h0, hd, hl⟩ := fair_of_list (orderly_of hs) h
  have key : ∀ i, cleanBy (σ i) (l.drop i) = true := by
    intro i
    induction i with
    | zero => rw [h0]; exact hc
    | succ i ih =>
      cases ha : act i with
      | none =>
        have : l.length ≤ i := by rw [hl] at ha; simpa using ha
        rw [List.drop_eq_nil_of_le (by omega)]; rfl
      | some a =>
        obtain ⟨u, ok, v⟩ := a
        have hn := (R.some ha).2
        rw [hl] at ha
        obtain ⟨hi, e⟩ := List.getElem?_eq_some_iff.1 ha
        rw [List.drop_eq_getElem_cons hi, e] at ih
        simp only [cleanBy, Bool.and_eq_true, hn] at ih
        exact ih.2
  refine ⟨σ, act, ⟨R, h0 ▸ hs, fun i u ok v ha => ?_⟩, h0, hd, hl⟩
  have ih := key i
  rw [hl] at ha
  obtain ⟨hi, e⟩ := List.getElem?_eq_some_iff.1 ha
  rw [List.drop_eq_getElem_cons hi, e] at ih
  simp only [cleanBy, Bool.and_eq_true, decide_eq_true_eq] at ih
  exact ih.1

theorem not_inherited_eq {tr : Hist} (h : own tr = tr) : notInherited tr :=
  fun _ _ hm => by rw [h]; exact hm

/-- Thread 1 has called exit and waits for thread 2's fini-thread, which waits for the lock that
thread 3 holds; main has called exit and waits for thread 1. -/
example : ∃ σ act, CleanRun σ act ∧ (σ 0).g.dead = false ∧ exiting (σ 0) 0 ∧ exiting (σ 0) 1 ∧
    notInherited (σ 0).g.tr ∧ (1, .beginExit .normal) ∈ own (σ 0).g.tr ∧
    blocked (σ 0) 0 ∧ blocked (σ 0) 1 := by
  obtain ⟨s, hr, hp⟩ := exists_of_runA (A := CleanOrderly) (ls := chain)
    (p := fun s => !s.g.dead && (s.th 0).any Frame.exits && !(s.th 0).any Frame.isPx &&
      (s.th 1).any Frame.exits && !(s.th 1).any Frame.isPx && decide (own s.g.tr = s.g.tr) &&
      decide ((1, .beginExit .normal) ∈ own s.g.tr) &&
      (s.th 0).head?.any Frame.isEpWait && !s.g.finiProcDone && (s.th 1).head?.any Frame.polls &&
      s.g.list.contains (.slot 0 1) && awaited s.g 1 (.slot 0 1) &&
      endsBy s chainEnd && cleanBy s chainEnd)
    (by decide +kernel)
  simp only [Bool.and_eq_true, Bool.not_eq_true', List.contains_iff_mem, List.any_eq_true,
    List.any_eq_false, decide_eq_true_eq, Bool.not_eq_true] at hp
  obtain ⟨⟨⟨⟨⟨⟨⟨⟨⟨⟨⟨⟨⟨h1, h2⟩, h3⟩, h4⟩, h5⟩, h6⟩, h7⟩, h8⟩, h9⟩, h10⟩, h11⟩, h12⟩, h13⟩, h14⟩ := hp
  obtain ⟨σ, act, R, h0, _⟩ := clean_of_list hr h13 h14
  refine ⟨σ, act, R, ?_⟩
  rw [h0]
  exact ⟨h1, ⟨h2, h3⟩, ⟨h4, h5⟩, not_inherited_eq h6, h7,
    Or.inr (Or.inl ⟨top_of h8, h9⟩), Or.inr (Or.inr ⟨top_of h10, _, h11, h12⟩)⟩

/-- The exception in C72 is needed: while thread 1 delivers the exit callbacks, thread 2 (client code)
calls monitor_real_exit. -/
theorem C72_real_exit : ∃ σ act, CleanRun σ act ∧ (σ 0).g.dead = false ∧ exiting (σ 0) 1 ∧
    notInherited (σ 0).g.tr ∧ ∀ k, ¬ finiDelivered (σ k).g.tr := by
  obtain ⟨s, hr, hp⟩ := exists_of_runA (A := CleanOrderly)
    (ls := three ++ C 1 .exit ++ T 1 3 ++ C 2 .realUExit)
    (p := fun s => !s.g.dead && (s.th 1).any Frame.exits && !(s.th 1).any Frame.isPx &&
      decide (own s.g.tr = s.g.tr) && endsBy s [(2, true, 0)] && cleanBy s [(2, true, 0)] &&
      ((next s (.step 2 (.go true 0))).map
        (fun s1 : S => s1.g.tr.all (fun e => !e.2.isFiniProcessRet))).getD false)
    (by decide +kernel)
  simp only [Bool.and_eq_true, Bool.not_eq_true', List.any_eq_true, List.any_eq_false,
    decide_eq_true_eq, Bool.not_eq_true] at hp
  obtain ⟨⟨⟨⟨⟨⟨h1, h2⟩, h3⟩, h4⟩, h5⟩, h6⟩, h7⟩ := hp
  obtain ⟨σ, act, R, h0, hd, hl⟩ := clean_of_list hr h5 h6
  have ha : act 0 = some (2, true, 0) := hl 0
  have hn := (R.fair.some ha).2
  rw [h0] at hn
  rw [hn] at h7
  have h7 : (σ 1).g.tr.all (fun e => !e.2.isFiniProcessRet) = true := h7
  refine ⟨σ, act, R, h0 ▸ h1, h0 ▸ ⟨h2, h3⟩, h0 ▸ not_inherited_eq h4, ?_⟩
  rintro k ⟨t, how, hm⟩
  have h1k : (t, Ev.finiProcessRet how) ∈ (σ 1).g.tr := by
    refine (own_sublist _).subset ?_
    by_cases hk : k ≤ 1
    · exact R.event hk hm
    · have e := R.fair.dead (i := 1) hd (j := k) (by omega)
      rw [e] at hm; exact hm
  have := List.all_eq_true.1 h7 _ h1k
  cases this

end Libmonitor.Proc
