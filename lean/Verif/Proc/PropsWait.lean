import Verif.Proc.Wait
import Verif.Proc.Sched
/-!
# C58: nobody waits for ever

The three waits of the library: for the list lock, for the thread that delivers the exit
callbacks, for the fini-thread calls of other threads.
-/

namespace Libmonitor.Proc

/-- What the innermost call may wait for: 1 the lock, 2 fini-thread, 3 the exit callbacks. -/
def Frame.rank (f : Frame) : Nat :=
  if f.wantsLock then 1 else if f.polls then 2 else if f.isEpWait then 3 else 0

def rankOf (s : S) (t : Tid) : Nat := ((s.th t).head?.map Frame.rank).getD 0

theorem rank_clash {f h : Frame} (hc : f = h ∨ clash f h = false) :
    (h.inLock = true → f.rank = 0) ∧ (h.inFini.isSome = true → f.rank ≤ 1) ∧
      (h.inEnd = true → f.rank ≤ 2) := by
  rcases hc with e | hc
  · subst e
    cases f <;> first
      | exact ⟨fun _ => rfl, fun _ => Nat.zero_le _, fun _ => Nat.zero_le _⟩
      | exact ⟨fun e => by simp [Frame.inLock] at e, fun e => by simp [Frame.inFini] at e,
          fun e => by simp [Frame.inEnd] at e⟩
  · simp only [clash, Bool.or_eq_false_iff, Bool.and_eq_false_iff] at hc
    obtain ⟨⟨h1, h2⟩, h3⟩ := hc
    refine ⟨fun e => ?_, fun e => ?_, fun e => ?_⟩
    · rw [e] at h1
      rcases h1 with h1 | h1
      · cases f <;> first | rfl | (simp [Frame.mayWait] at h1; done)
      · cases h1
    · rw [e] at h3
      rcases h3 with h3 | h3
      · cases f <;> first | exact Nat.zero_le _ | exact Nat.le_refl _ | (simp [Frame.mayPoll, Frame.mayEnd] at h3; done)
      · cases h3
    · rw [e] at h2
      rcases h2 with h2 | h2
      · cases f <;> first | exact Nat.zero_le _ | exact Nat.le_refl _ | exact Nat.le_succ _ | (simp [Frame.mayEnd] at h2; done)
      · cases h2

theorem rank_top {s : S} {t : Tid} {p : Frame → Bool} (h : top s t p) :
    ∃ f, rankOf s t = f.rank ∧ p f = true := by
  obtain ⟨f, hf, hp⟩ := h
  refine ⟨f, ?_, hp⟩
  simp only [Option.mem_def] at hf
  simp [rankOf, hf]

theorem rank_duty {s : S} (hs : ReachA Orderly s) {u : Tid} {h : Frame} (hm : h ∈ s.th u) :
    (h.inLock = true → rankOf s u = 0) ∧ (h.inFini.isSome = true → rankOf s u ≤ 1) ∧
      (h.inEnd = true → rankOf s u ≤ 2) := by
  have ht := tidy_inv hs u
  cases hl : s.th u with
  | nil => rw [hl] at hm; cases hm
  | cons f rest =>
    rw [hl] at hm ht
    have hr : rankOf s u = f.rank := by simp [rankOf, hl]
    rw [hr]
    apply rank_clash
    rcases List.mem_cons.1 hm with e | hm
    · exact Or.inl e.symm
    · exact Or.inr ((List.pairwise_cons.1 ht).1 h hm)

/-- Waiting goes down: lock, fini-thread, exit callbacks. -/
theorem waitsFor_rank {s : S} (hs : ReachA Orderly s) {t u : Tid} (h : waitsFor s t u) :
    rankOf s u < rankOf s t := by
  cases h with
  | lock ht hl hu =>
    obtain ⟨f, hr, hp⟩ := rank_top ht
    obtain ⟨x, hx, hpx⟩ := hu
    have := (rank_duty hs hx).1 hpx
    rw [hr, this]; simp [Frame.rank, hp]
  | exit ht hd hu =>
    obtain ⟨f, hr, hp⟩ := rank_top ht
    obtain ⟨x, hx, hpx⟩ := hu
    have := (rank_duty hs hx).2.2 hpx
    have : f.rank = 3 := by cases f <;> first | rfl | (simp [Frame.isEpWait] at hp; done)
    omega
  | fini ht n hn ha hu =>
    obtain ⟨f, hr, hp⟩ := rank_top ht
    obtain ⟨x, hx, hpx⟩ := hu
    have := (rank_duty hs hx).2.1 (by rw [of_decide_eq_true hpx]; rfl)
    have : f.rank = 2 := by cases f <;> first | rfl | (simp [Frame.polls] at hp; done)
    omega

/-- C58, in orderly executions (see `Orderly`): a thread that has to wait waits for another
thread, which is still there and is doing what it waits for.  Missing: executions in which a
thread that others wait for is ended, exits again, or is left behind by fork (witnesses below). -/
theorem C58_someone_partial {s : S} (hs : ReachA Orderly s) {t : Tid} (hb : blocked s t) :
    ∃ u, u ≠ t ∧ waitsFor s t u := by
  have key : ∃ u, waitsFor s t u := by
    rcases hb with ⟨ht, hl⟩ | ⟨ht, hd⟩ | ⟨ht, n, hn, ha⟩
    · obtain ⟨w, f, hf, hp⟩ := holder_inv hs hl
      exact ⟨w, .lock ht hl ⟨f, hf, hp⟩⟩
    · obtain ⟨x, hx, hpx⟩ := ht
      have hm : x ∈ s.th t := List.mem_of_head? hx
      have hc := (late_inv hs).2 t x hm (by
        cases x <;> first | rfl | (simp [Frame.isEpWait] at hpx; done))
      obtain ⟨w, f, hf, hp⟩ := ender_inv hs hc hd
      exact ⟨w, .exit ⟨x, hx, hpx⟩ hd ⟨f, hf, hp⟩⟩
    · have ha' := ha
      simp only [awaited, Bool.and_eq_true, Bool.not_eq_true'] at ha'
      obtain ⟨w, f, hf, hp⟩ := finier_inv hs ha'.1.2 ha'.2
      exact ⟨w, .fini ht n hn ha ⟨f, hf, decide_eq_true hp⟩⟩
  obtain ⟨u, hu⟩ := key
  refine ⟨u, ?_, hu⟩
  intro e
  subst e
  exact Nat.lt_irrefl _ (waitsFor_rank hs hu)

/-- A thread that need not wait can go on, whatever the outcome of external calls. -/
theorem goes_on {s : S} {u : Tid} (hd : s.g.dead = false) (hl : s.th u ≠ []) (hb : ¬ blocked s u)
    (ok : Bool) (v : Nat) : ∃ s', next s (.step u (.go ok v)) = some s' := by
  cases hth : s.th u with
  | nil => exact absurd hth hl
  | cons f rest =>
    have hsome : ∃ r, fstep s.g u ok v f = some r := by
      cases hf : fstep s.g u ok v f with
      | some r => exact ⟨r, rfl⟩
      | none =>
        exfalso
        apply hb
        have htop : ∀ {p : Frame → Bool}, p f = true → top s u p :=
          fun hp => ⟨f, by rw [hth]; rfl, hp⟩
        revert hf
        cases f <;> simp only [fstep, cont] <;> (repeat' split) <;> intro hf <;>
          first
          | (cases hf; done)
          | (refine Or.inl ⟨htop rfl, ?_⟩; assumption)
          | (refine Or.inr (Or.inl ⟨htop rfl, ?_⟩); simp_all)
    obtain ⟨r, hr⟩ := hsome
    exact ⟨applyRes s u rest r, by simp [next, step, hd, hth, hr]⟩

/-- C58, in orderly executions: there is no deadlock.  Following the threads a waiting thread
waits for, one arrives at a thread that can go on. -/
theorem C58_no_deadlock_partial {s : S} (hs : ReachA Orderly s) (hd : s.g.dead = false) {t : Tid}
    (hb : blocked s t) : ∃ u, waitsOn s t u ∧ ¬ blocked s u ∧
      ∀ ok v, ∃ s', next s (.step u (.go ok v)) = some s' := by
  generalize hk : rankOf s t = k
  induction k using Nat.strongRecOn generalizing t with
  | _ k ih =>
    obtain ⟨u, hne, hu⟩ := C58_someone_partial hs hb
    have hlt := waitsFor_rank hs hu
    by_cases hbu : blocked s u
    · obtain ⟨w, h1, h2, h3⟩ := ih _ (hk ▸ hlt) hbu rfl
      exact ⟨w, .more hu h1, h2, h3⟩
    · have hl : s.th u ≠ [] := by
        intro e
        cases hu with
        | lock _ _ hu => obtain ⟨x, hx, _⟩ := hu; rw [e] at hx; cases hx
        | exit _ _ hu => obtain ⟨x, hx, _⟩ := hu; rw [e] at hx; cases hx
        | fini _ _ _ _ hu => obtain ⟨x, hx, _⟩ := hu; rw [e] at hx; cases hx
      exact ⟨u, .one hu, hbu, goes_on hd hl hbu⟩

/-! ## Concrete executions -/

theorem top_of {s : S} {t : Tid} {p : Frame → Bool} (h : (s.th t).head?.any p = true) :
    top s t p := by
  cases hh : (s.th t).head? with
  | none => rw [hh] at h; cases h
  | some f => rw [hh] at h; exact ⟨f, hh, h⟩

theorem inStack_of {s : S} {t : Tid} {p : Frame → Bool} (h : (s.th t).any p = true) :
    inStack s t p := List.any_eq_true.1 h

/-- Nobody has a duty: whoever waits waits for nobody. -/
theorem nobody {A : S → Lbl → Prop} {s : S} (hs : ReachA A s)
    (h : ∀ u, u < s.g.nextTid → (s.th u).any Frame.duty = false) (t u : Tid) :
    ¬ waitsFor s t u := by
  have hn : ∀ f ∈ s.th u, f.duty = false := by
    intro f hf
    by_cases hu : u < s.g.nextTid
    · have := h u hu
      rw [List.any_eq_false] at this
      simpa using this f hf
    · rw [fresh_inv hs u (by omega)] at hf; cases hf
  intro hw
  cases hw with
  | lock _ _ hu =>
    obtain ⟨f, hf, hp⟩ := hu
    have := hn f hf; simp [Frame.duty, hp] at this
  | exit _ _ hu =>
    obtain ⟨f, hf, hp⟩ := hu
    have := hn f hf; simp [Frame.duty, hp] at this
  | fini _ n _ _ hu =>
    obtain ⟨f, hf, hp⟩ := hu
    have := hn f hf; simp [Frame.duty, of_decide_eq_true hp] at this

/-- Main waits for thread 1 to deliver the exit callbacks, thread 1 for the fini-thread call of
thread 2, thread 2 (which creates a thread in it) for the lock, which thread 3 holds. -/
def chain : List Lbl :=
  three ++ createN 0 82 83 11 ++ begin 3 7 ++ C 1 .exit ++ T 1 3 ++ C 0 .exit ++ T 0 2 ++ T 1 12 ++
    D 2 ++ T 2 2 ++ C 2 (.create 90 91) ++ T 2 6 ++ V 2 8 ++ C 3 (.create 92 93) ++ T 3 6 ++
    V 3 8 ++ T 3 1

example : ∃ s, ReachA Orderly s ∧ s.g.dead = false ∧ waitsFor s 0 1 ∧ waitsFor s 1 2 ∧
    waitsFor s 2 3 ∧ blocked s 0 ∧ blocked s 1 ∧ blocked s 2 := by
  obtain ⟨s, hr, hp⟩ := exists_of_runA (A := Orderly) (ls := chain)
    (p := fun s => !s.g.dead && (s.th 0).head?.any Frame.isEpWait && !s.g.finiProcDone &&
      (s.th 1).any Frame.inEnd && (s.th 1).head?.any Frame.polls &&
      s.g.list.contains (.slot 0 1) && awaited s.g 1 (.slot 0 1) &&
      (s.th 2).any (fun f => decide (f.inFini = some (.slot 0 1))) &&
      (s.th 2).head?.any Frame.wantsLock && s.g.lock && (s.th 3).any Frame.inLock)
    (by decide +kernel)
  simp only [Bool.and_eq_true, Bool.not_eq_true', List.contains_iff_mem] at hp
  obtain ⟨⟨⟨⟨⟨⟨⟨⟨⟨⟨h1, h2⟩, h3⟩, h4⟩, h5⟩, h6⟩, h7⟩, h8⟩, h9⟩, h10⟩, h11⟩ := hp
  exact ⟨s, hr, h1, .exit (top_of h2) h3 (inStack_of h4), .fini (top_of h5) _ h6 h7 (inStack_of h8),
    .lock (top_of h9) h10 (inStack_of h11), Or.inr (Or.inl ⟨top_of h2, h3⟩),
    Or.inr (Or.inr ⟨top_of h5, _, h6, h7⟩), Or.inl ⟨top_of h9, h10⟩⟩

/-- A thread in monitor_fini_thread, called during exit, receives a signal that ends the
process (it crashes): it waits for the exit callbacks, and the thread that delivers them waits,
without a timeout (pthread.c:609-611), for the end of fini-thread. -/
theorem C58_crash_in_fini : ∃ s, Reach s ∧ s.g.dead = false ∧ waitsFor s 1 2 ∧ waitsFor s 2 1 ∧
    (∀ n ∈ s.g.list, (s.g.nodes n).finiS = true ∨ (s.g.nodes n).self = some 1) := by
  obtain ⟨s, hr, hp⟩ := exists_of_run (ls := three ++ C 1 .exit ++ T 1 15 ++ D 0 ++ T 0 3 ++ D 2 ++
      T 2 2 ++ C 2 (.fatal false) ++ T 2 2)
    (p := fun s => !s.g.dead && (s.th 2).head?.any Frame.isEpWait && !s.g.finiProcDone &&
      (s.th 1).any Frame.inEnd && (s.th 1).head?.any Frame.polls &&
      s.g.list.contains (.slot 0 1) && awaited s.g 1 (.slot 0 1) &&
      (s.th 2).any (fun f => decide (f.inFini = some (.slot 0 1))) &&
      decide (∀ n ∈ s.g.list, (s.g.nodes n).finiS = true ∨ (s.g.nodes n).self = some 1))
    (by decide +kernel)
  simp only [Bool.and_eq_true, Bool.not_eq_true', List.contains_iff_mem] at hp
  obtain ⟨⟨⟨⟨⟨⟨⟨⟨h1, h2⟩, h3⟩, h4⟩, h5⟩, h6⟩, h7⟩, h8⟩, h9⟩ := hp
  exact ⟨s, hr, h1, .fini (top_of h5) _ h6 h7 (inStack_of h8),
    .exit (top_of h2) h3 (inStack_of h4), of_decide_eq_true h9⟩

/-- A signal handler that interrupts pthread_create inside the lock calls exit: the thread waits
for the lock it holds itself. -/
theorem C58_exit_in_handler : ∃ s, Reach s ∧ s.g.dead = false ∧ waitsFor s 0 0 ∧
    (∀ u, u ≠ 0 → s.th u = []) ∧ ∀ ok v, next s (.step 0 (.go ok v)) = none := by
  obtain ⟨s, hr, hp⟩ := exists_of_run (ls := toMain ++ C 0 (.create 70 71) ++ T 0 10 ++ V 0 9 ++
      T 0 1 ++ I 0 ++ C 0 .exit ++ T 0 5)
    (p := fun s => !s.g.dead && decide (s.g.nextTid = 1) && s.g.lock && (s.th 0).any Frame.inLock &&
      decide ((s.th 0).head? = some .sd1))
    (by decide +kernel)
  simp only [Bool.and_eq_true, Bool.not_eq_true', decide_eq_true_eq] at hp
  obtain ⟨⟨⟨⟨h1, h2⟩, h3⟩, h4⟩, h5⟩ := hp
  refine ⟨s, hr, h1, .lock ⟨.sd1, h5, rfl⟩ h3 (inStack_of h4), fun u hu => ?_, fun ok v => ?_⟩
  · exact fresh_inv hr u (by rw [h2]; exact Nat.one_le_iff_ne_zero.2 hu)
  · cases hl : s.th 0 with
    | nil => rw [hl] at h5; cases h5
    | cons f rest =>
      rw [hl] at h5; cases h5
      simp [next, step, hl, fstep, h3]

/-- ... and the same if the handler calls pthread_create. -/
theorem C58_create_in_handler : ∃ s, Reach s ∧ s.g.dead = false ∧ waitsFor s 0 0 ∧
    ∀ u, u ≠ 0 → s.th u = [] := by
  obtain ⟨s, hr, hp⟩ := exists_of_run (ls := toMain ++ C 0 (.create 70 71) ++ T 0 10 ++ V 0 9 ++
      T 0 1 ++ I 0 ++ C 0 (.create 70 71) ++ T 0 6 ++ V 0 9)
    (p := fun s => !s.g.dead && decide (s.g.nextTid = 1) && s.g.lock && (s.th 0).any Frame.inLock &&
      (s.th 0).head?.any Frame.wantsLock)
    (by decide +kernel)
  simp only [Bool.and_eq_true, Bool.not_eq_true', decide_eq_true_eq] at hp
  obtain ⟨⟨⟨⟨h1, h2⟩, h3⟩, h4⟩, h5⟩ := hp
  refine ⟨s, hr, h1, .lock (top_of h5) h3 (inStack_of h4), fun u hu => ?_⟩
  exact fresh_inv hr u (by rw [h2]; exact Nat.one_le_iff_ne_zero.2 hu)

/-- A crash between main.c:306 and main.c:313: the winner of the race is not marked yet and waits
for itself. -/
theorem C58_crash_before_mark : ∃ s, Reach s ∧ s.g.dead = false ∧ waitsFor s 0 0 ∧
    ∀ u, u ≠ 0 → s.th u = [] := by
  obtain ⟨s, hr, hp⟩ := exists_of_run (ls := toMain ++ C 0 .exit ++ T 0 2 ++ I 0 ++
      C 0 (.fatal false) ++ T 0 2)
    (p := fun s => !s.g.dead && decide (s.g.nextTid = 1) && !s.g.finiProcDone &&
      (s.th 0).any Frame.inEnd && (s.th 0).head?.any Frame.isEpWait)
    (by decide +kernel)
  simp only [Bool.and_eq_true, Bool.not_eq_true', decide_eq_true_eq] at hp
  obtain ⟨⟨⟨⟨h1, h2⟩, h3⟩, h4⟩, h5⟩ := hp
  refine ⟨s, hr, h1, .exit (top_of h5) h3 (inStack_of h4), fun u hu => ?_⟩
  exact fresh_inv hr u (by rw [h2]; exact Nat.one_le_iff_ne_zero.2 hu)

/-- A thread without a record (its creation was hidden from the client) exits, and a callback
crashes: the mark that would let it through is kept in the record, so it waits for itself. -/
theorem C58_no_record : ∃ s, Reach s ∧ s.g.dead = false ∧ waitsFor s 1 1 ∧
    (1, .beginExit .normal) ∈ s.g.tr ∧ s.th 0 = [.mainApp] ∧ ∀ u, 1 < u → s.th u = [] := by
  obtain ⟨s, hr, hp⟩ := exists_of_run (ls := toMain ++ C 0 (.create 70 71) ++ T 0 10 ++
      V 0 ignoreData ++ T 0 1 ++ T 1 1 ++ C 1 .exit ++ T 1 3 ++ C 1 (.fatal false) ++ T 1 2)
    (p := fun s => !s.g.dead && decide (s.g.nextTid = 2) && !s.g.finiProcDone &&
      (s.th 1).any Frame.inEnd && (s.th 1).head?.any Frame.isEpWait &&
      decide ((1, .beginExit .normal) ∈ s.g.tr) && decide (s.th 0 = [.mainApp]))
    (by decide +kernel)
  simp only [Bool.and_eq_true, Bool.not_eq_true', decide_eq_true_eq] at hp
  obtain ⟨⟨⟨⟨⟨⟨h1, h2⟩, h3⟩, h4⟩, h5⟩, h6⟩, h7⟩ := hp
  refine ⟨s, hr, h1, .exit (top_of h5) h3 (inStack_of h4), h6, h7, fun u hu => ?_⟩
  exact fresh_inv hr u (by rw [h2]; exact hu)

/-- A thread is cancelled in monitor_fini_thread during exit: the loop waits for nobody. -/
theorem C58_cancelled_in_fini : ∃ s, Reach s ∧ s.g.dead = false ∧ blocked s 1 ∧ s.th 2 = [] ∧
    ∀ u, ¬ waitsFor s 1 u := by
  obtain ⟨s, hr, hp⟩ := exists_of_run (ls := three ++ C 1 .exit ++ T 1 15 ++ D 0 ++ T 0 3 ++ D 2 ++
      T 2 2 ++ U 2 ++ T 2 2)
    (p := fun s => !s.g.dead && decide ((s.th 1).head?.map Frame.rank = some 2) &&
      (s.th 1).head?.any Frame.polls && decide (s.th 2 = []) &&
      s.g.list.contains (.slot 0 1) && awaited s.g 1 (.slot 0 1) &&
      decide (∀ u, u < s.g.nextTid → (s.th u).any (fun f => f.inFini.isSome) = false))
    (by decide +kernel)
  simp only [Bool.and_eq_true, Bool.not_eq_true', List.contains_iff_mem, decide_eq_true_eq] at hp
  obtain ⟨⟨⟨⟨⟨⟨h1, h0⟩, h2⟩, h3⟩, h4⟩, h5⟩, h7⟩ := hp
  refine ⟨s, hr, h1, Or.inr (Or.inr ⟨top_of h2, _, h4, h5⟩), h3, fun u hw => ?_⟩
  have hrk : rankOf s 1 = 2 := by simp [rankOf, h0]
  cases hw with
  | lock ht _ _ =>
    obtain ⟨f, hr, hp⟩ := rank_top ht
    rw [hrk] at hr; simp [Frame.rank, hp] at hr
  | exit ht _ _ =>
    obtain ⟨f, hr, hp⟩ := rank_top ht
    rw [hrk] at hr
    cases f <;> first | (simp [Frame.isEpWait] at hp; done) | (simp [Frame.rank, Frame.wantsLock, Frame.polls, Frame.isEpWait] at hr; done)
  | fini _ n _ _ hu =>
    obtain ⟨f, hf, hp⟩ := hu
    by_cases hu : u < s.g.nextTid
    · have := List.any_eq_false.1 (h7 u hu) f hf
      rw [of_decide_eq_true hp] at this
      exact this rfl
    · rw [fresh_inv hr u (by omega)] at hf; cases hf

/-- An exec that fails before main (in a constructor) delivers the exit callbacks;
monitor_begin_process_fcn then takes back that they have been delivered (main.c:279).  A thread
that calls exit later waits for nobody. -/
theorem C58_failed_exec : ∃ s, Reach s ∧ s.g.dead = false ∧ blocked s 1 ∧ s.th 0 = [.mainApp] ∧
    ∀ u, ¬ waitsFor s 1 u := by
  obtain ⟨s, hr, hp⟩ := exists_of_run (ls := C 0 (.exec true) ++ T 0 11 ++ F 0 ++ toMain ++
      create1 0 70 71 9 ++ begin 1 5 ++ C 1 .exit ++ T 1 2)
    (p := fun s => !s.g.dead && !s.g.finiProcDone && (s.th 1).head?.any Frame.isEpWait &&
      decide (s.th 0 = [.mainApp]) &&
      decide (∀ u, u < s.g.nextTid → (s.th u).any Frame.duty = false))
    (by decide +kernel)
  simp only [Bool.and_eq_true, Bool.not_eq_true', decide_eq_true_eq] at hp
  obtain ⟨⟨⟨⟨h1, h2⟩, h3⟩, h4⟩, h5⟩ := hp
  exact ⟨s, hr, h1, Or.inr (Or.inl ⟨top_of h3, h2⟩), h4, nobody hr h5 1⟩

/-- A process is forked while another thread is inside the lock: in the child it is never
released, and the first pthread_create waits for nobody. -/
theorem C58_lock_after_fork : ∃ s, Reach s ∧ s.g.dead = false ∧ startedBy s.g.tr = some false ∧
    blocked s 0 ∧ (∀ u, u ≠ 0 → s.th u = []) ∧ ∀ u, ¬ waitsFor s 0 u := by
  obtain ⟨s, hr, hp⟩ := exists_of_run (ls := three ++ C 1 (.create 90 91) ++ T 1 6 ++ V 1 9 ++
      T 1 1 ++ C 0 .fork ++ T 0 1 ++ V 0 9 ++ [.fork 0] ++ T 0 7 ++ C 0 (.create 90 91) ++ T 0 8)
    (p := fun s => !s.g.dead && decide (startedBy s.g.tr = some false) && s.g.lock &&
      (s.th 0).head?.any Frame.wantsLock &&
      decide (∀ u, u < s.g.nextTid → u ≠ 0 → s.th u = []) &&
      decide (∀ u, u < s.g.nextTid → (s.th u).any Frame.duty = false))
    (by decide +kernel)
  simp only [Bool.and_eq_true, Bool.not_eq_true', decide_eq_true_eq] at hp
  obtain ⟨⟨⟨⟨⟨h1, h2⟩, h3⟩, h4⟩, h6⟩, h7⟩ := hp
  refine ⟨s, hr, h1, h2, Or.inl ⟨top_of h4, h3⟩, fun u hu => ?_, nobody hr h7 0⟩
  by_cases h : u < s.g.nextTid
  · exact h6 u h hu
  · exact fresh_inv hr u (by omega)

end Libmonitor.Proc
