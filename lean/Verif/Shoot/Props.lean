import Verif.Shoot.Lemmas

/-!
# C19: the shootdown loop
-/

namespace Libmonitor.Shoot

open Spec

/-- **C19.**  The loop ends with success at an iteration exactly if that scan saw everybody
finished; in particular it ends as soon as that is the case, whatever the clock shows. -/
theorem C19_stops_when_all_done (t0 : Time) (obs : Nat → Obs) (k : Nat) (s : Loc)
    (h : status t0 obs k = .running s) :
    status t0 obs (k + 1) = .finished k ↔ AllDone (obs k) := by
  rw [← unfinished_zero]
  simp only [status, h]
  constructor
  · intro e
    cases hi : iter s (obs k) with
    | finished =>
      unfold iter at hi
      by_cases c : (scan (obs k).thr).unfinished = 0
      · exact c
      · simp only [c, if_false] at hi
        split at hi
        · cases hi
        · split at hi <;> cases hi
    | gaveUp => simp [hi] at e
    | again s' => simp [hi] at e
  · intro c
    have : iter s (obs k) = .finished := by simp [iter, c]
    simp [this]

/-- **C19.**  Success means that everybody was seen finished. -/
theorem C19_finished_sound (t0 : Time) (obs : Nat → Obs) (n k : Nat)
    (h : status t0 obs n = .finished k) : k < n ∧ AllDone (obs k) := by
  obtain ⟨hk, s, hs, hi⟩ := (status_end t0 obs n k).1 h
  refine ⟨hk, (C19_stops_when_all_done t0 obs k s hs).1 ?_⟩
  simp [status, hs, hi]

/-- **C19.**  Giving up: somebody has not even begun, and more than ten seconds passed since
the loop started if nobody ever began, and since the last scan that saw somebody new begin
otherwise (clock readings; microseconds in range). -/
theorem C19_gives_up_late (t0 : Time) (obs : Nat → Obs) (n k : Nat)
    (hu0 : t0.usec < 1000000) (hu : ∀ j, (obs j).now.usec < 1000000)
    (h : status t0 obs n = .gaveUp k) :
    (∃ f ∈ (obs k).thr, Waits f ∧ f.started = false) ∧
    ((∀ j ≤ k, ¬ Progress obs j) → micros (obs k).now > micros t0 + 10 * 1000000) ∧
    (∀ j ≤ k, Progress obs j → (∀ i, j < i → i ≤ k → ¬ Progress obs i) →
      micros (obs k).now > micros (obs j).now + 10 * 1000000) := by
  obtain ⟨hk, s, hs, hi⟩ := (status_end t0 obs n k).2 h
  have M := status_mem t0 obs k s hs
  unfold iter at hi
  simp only [← begun_eq] at hi
  by_cases h1 : (scan (obs k).thr).unfinished = 0
  · simp [h1] at hi
  simp only [h1, if_false] at hi
  by_cases h2 : begun (obs k) > s.lastStarted
  · simp [h2] at hi
  simp only [h2, if_false] at hi
  have h3 : (obs k).now.sec > s.last.sec + timeout ∧ (scan (obs k).thr).unstarted > 0 := by
    split at hi
    · assumption
    · cases hi
  obtain ⟨h3, h4⟩ := h3
  have noneK : ¬ Progress obs k := by
    intro P
    rcases M.src with ⟨e, _⟩ | ⟨j, hj, _, e, _⟩
    · have := P.1; omega
    · have := P.2 j hj; omega
  refine ⟨?_, ?_, ?_⟩
  · rw [scan_unstarted] at h4
    obtain ⟨f, hf, hp⟩ := List.countP_pos_iff.1 h4
    simp only [pUnstarted, Bool.and_eq_true, Bool.not_eq_true'] at hp
    exact ⟨f, hf, ⟨hp.1.1, hp.1.2⟩, hp.2⟩
  · intro hnp
    rcases M.src with ⟨_, e⟩ | ⟨j, hj, _, _, hp⟩
    · rw [e] at h3
      simp only [micros, timeout] at h3 ⊢; omega
    · exact absurd hp (hnp j (by omega))
  · intro j hj hp hlast
    rcases M.src with ⟨e, _⟩ | ⟨j', hj', el, es, hp'⟩
    · have hjk : j ≠ k := by rintro rfl; exact noneK hp
      have := M.ub j (by omega)
      have := hp.1
      omega
    · have hjj : j' = j := by
        rcases Nat.lt_trichotomy j j' with hlt | heq | hgt
        · exact absurd hp' (hlast j' hlt (by omega))
        · exact heq.symm
        · have hjk : j ≠ k := by rintro rfl; exact noneK hp
          have := M.ub j (by omega)
          have := hp.2 j' hgt
          omega
      subst hjj
      have := hu j'
      rw [el] at h3
      simp only [micros, timeout] at h3 ⊢; omega

/-- **C19.**  The same in terms of threads: with a frozen list, flags that are never
taken back and a clock that does not go backwards, giving up comes more than ten seconds after
every scan that was the first to see a thread that had begun finishing. -/
theorem C19_gives_up_after_every_begin (t0 : Time) (obs : Nat → Obs) (n k N i j : Nat)
    (hu0 : t0.usec < 1000000) (hu : ∀ j, (obs j).now.usec < 1000000) (F : Frozen obs N)
    (hc : ∀ a b, a ≤ b → micros (obs a).now ≤ micros (obs b).now)
    (h : status t0 obs n = .gaveUp k) (hj : j ≤ k) (B : Begins obs i j) :
    micros (obs k).now > micros (obs j).now + 10 * 1000000 := by
  have hp := begins_progress F B
  have key : ∀ d j, k - j ≤ d → j ≤ k → Progress obs j →
      micros (obs k).now > micros (obs j).now + 10 * 1000000 := by
    intro d
    induction d with
    | zero =>
      intro j hd hj hp
      exact (C19_gives_up_late t0 obs n k hu0 hu h).2.2 j hj hp (fun i h1 h2 => by omega)
    | succ d ih =>
      intro j hd hj hp
      by_cases q : ∃ m, j < m ∧ m ≤ k ∧ Progress obs m
      · obtain ⟨m, h1, h2, h3⟩ := q
        have := ih m (by omega) h2 h3
        have := hc j m (by omega)
        omega
      · exact (C19_gives_up_late t0 obs n k hu0 hu h).2.2 j hj hp
          (fun i h1 h2 h3 => q ⟨i, h1, h2, h3⟩)
  exact key _ j (Nat.le_refl _) hj hp

/-- **C19.**  Termination: if the list is frozen, flags are not taken back, the clock goes on
and every thread that began finishing is done eventually, the loop ends.  Nothing is assumed
about threads that never react to the signal. -/
theorem C19_terminates (t0 : Time) (obs : Nat → Obs) (n : Nat) (F : Frozen obs n)
    (hc : ClockRuns obs) (ht : CallbacksTerminate obs) :
    ∃ k m, status t0 obs k = .finished m ∨ status t0 obs k = .gaveUp m := by
  by_cases hend : ∃ k, ∀ s, status t0 obs k ≠ .running s
  · obtain ⟨k, hk⟩ := hend
    cases hs : status t0 obs k with
    | running s => exact absurd hs (hk s)
    | finished m => exact ⟨k, m, .inl hs⟩
    | gaveUp m => exact ⟨k, m, .inr hs⟩
  exfalso
  have hrun : ∀ k, ∃ s, status t0 obs k = .running s := by
    intro k
    cases hs : status t0 obs k with
    | running s => exact ⟨s, rfl⟩
    | finished m => exact absurd ⟨k, by simp [hs]⟩ hend
    | gaveUp m => exact absurd ⟨k, by simp [hs]⟩ hend
  -- the locals before each iteration
  let loc : Nat → Loc := fun k =>
    match status t0 obs k with
    | .running s => s
    | _ => { last := t0 }
  have hloc : ∀ k, status t0 obs k = .running (loc k) := by
    intro k
    obtain ⟨s, hs⟩ := hrun k
    have : loc k = s := by simp only [loc, hs]
    rw [this]; exact hs
  have hiter : ∀ k, iter (loc k) (obs k) = .again (loc (k + 1)) := by
    intro k
    have h := hloc (k + 1)
    simp only [status, hloc k] at h
    cases hi : iter (loc k) (obs k) with
    | finished => simp [hi] at h
    | gaveUp => simp [hi] at h
    | again s => simp only [hi, Status.running.injEq] at h; rw [h]
  have hstep : ∀ k, (loc k).lastStarted ≤ (loc (k + 1)).lastStarted ∧
      ((loc k).lastStarted = (loc (k + 1)).lastStarted → loc (k + 1) = loc k) ∧
      (loc (k + 1) = loc k → (scan (obs k).thr).unfinished ≠ 0 ∧
        ((obs k).now.sec > (loc k).last.sec + timeout → (scan (obs k).thr).unstarted = 0)) := by
    intro k
    have h := hiter k
    unfold iter at h
    simp only at h
    by_cases h1 : (scan (obs k).thr).unfinished = 0
    · simp [h1] at h
    · simp only [h1, if_false] at h
      by_cases h2 : (scan (obs k).thr).started > (loc k).lastStarted
      · simp only [h2, if_true, Iter.again.injEq] at h
        rw [← h]
        refine ⟨by simp only; omega, fun e => ?_, fun e => ?_⟩
        · simp only at e; omega
        · have := congrArg Loc.lastStarted e
          simp only at this; omega
      · simp only [h2, if_false] at h
        by_cases h3 : (obs k).now.sec > (loc k).last.sec + timeout ∧
            (scan (obs k).thr).unstarted > 0
        · simp [h3] at h
        · simp only [h3, if_false, Iter.again.injEq] at h
          rw [← h]
          refine ⟨Nat.le_refl _, fun _ => rfl, fun _ => ⟨h1, fun h4 => ?_⟩⟩
          cases hz : (scan (obs k).thr).unstarted with
          | zero => rfl
          | succ u => exact absurd ⟨h4, by omega⟩ h3
  have hb : ∀ k, (loc k).lastStarted ≤ n := by
    intro k
    rcases (status_mem t0 obs k (loc k) (hloc k)).src with ⟨e, _⟩ | ⟨j, _, _, e, _⟩
    · omega
    · rw [e]
      have : begun (obs j) ≤ (obs j).thr.length := List.countP_le_length
      rw [F.len j] at this
      exact this
  obtain ⟨K, hK⟩ := eventually_const (fun k => (loc k).lastStarted) n hb (fun k => (hstep k).1)
  have hconst : ∀ k, K ≤ k → loc (k + 1) = loc k := by
    intro k hk
    have a := hK k hk
    have b := hK (k + 1) (by omega)
    exact (hstep k).2.1 (a.trans b.symm)
  have hlocK : ∀ d, loc (K + d) = loc K := by
    intro d
    induction d with
    | zero => rfl
    | succ d ih => rw [← Nat.add_assoc, hconst (K + d) (by omega), ih]
  obtain ⟨N, hN⟩ := hc ((loc K).last.sec + timeout)
  obtain ⟨M, hM⟩ := eventually_all
    (fun i k => ∀ f, (obs k).thr[i]? = some f → Waits f → f.started = true → f.done = true) n
    (by
      intro i hi
      by_cases q : ∃ k f, (obs k).thr[i]? = some f ∧ Waits f ∧ f.started = true
      · obtain ⟨k, f, hf, hw, hs⟩ := q
        obtain ⟨m, hm⟩ := ht k i f hf hw hs
        refine ⟨m, fun k' hk' g hg _ _ => ?_⟩
        have hlt : i < (obs m).thr.length := by rw [F.len m]; exact hi
        have hm' : (obs m).thr[i]? = some (obs m).thr[i] := by simp [hlt]
        exact F.done m k' i _ g hk' hm' hg (hm _ hm')
      · exact ⟨0, fun k _ f hf hw hs => absurd ⟨k, f, hf, hw, hs⟩ q⟩)
  let k := K + (N + M)
  have hk1 : loc (k + 1) = loc k := hconst k (by omega)
  have hkK : loc k = loc K := hlocK (N + M)
  obtain ⟨hne, himp⟩ := (hstep k).2.2 hk1
  have hz := himp (by rw [hkK]; exact hN k (by omega))
  apply hne
  rw [unfinished_zero]
  intro f hf hw
  obtain ⟨i, hi, rfl⟩ := List.getElem_of_mem hf
  refine hM i (by rw [← F.len k]; exact hi) k (by omega) _ (by simp [hi]) hw ?_
  cases hs : (obs k).thr[i].started with
  | true => rfl
  | false =>
    rw [scan_unstarted, List.countP_eq_zero] at hz
    exact absurd (by simp [pUnstarted, hw.1, hw.2, hs]) (hz _ hf)

/-- **C19.**  In each scan the signal goes exactly to the threads the loop waits for that have
not begun, each exactly once, never to the caller. -/
theorem C19_kills_exact (l : List Flags) :
    (∀ i, i ∈ (scan l).kills ↔ ∃ f, l[i]? = some f ∧ Waits f ∧ f.started = false) ∧
    (scan l).kills.Pairwise (· < ·) := by
  rw [scan_kills]
  refine ⟨fun i => ?_, toKill_sorted l 0⟩
  rw [toKill_mem]
  simp only [Nat.zero_le, true_and, Nat.sub_zero]
  constructor
  · rintro ⟨f, h1, h2⟩
    simp only [pUnstarted, Bool.and_eq_true, Bool.not_eq_true'] at h2
    exact ⟨f, h1, ⟨h2.1.1, h2.1.2⟩, h2.2⟩
  · rintro ⟨f, h1, hw, hs⟩
    exact ⟨f, h1, by simp [pUnstarted, hw.1, hw.2, hs]⟩

/-! ### The hypotheses are met -/

/-- Thread 1 is the caller; thread 0 begins at scan 1 and is done at scan 3; thread 2 never
reacts; the clock advances by four seconds per scan. -/
def sampleObs (k : Nat) : Obs where
  thr := [⟨false, true, decide (1 ≤ k), decide (3 ≤ k)⟩, ⟨true, true, false, false⟩,
    ⟨false, true, false, false⟩]
  now := ⟨4 * k, 5⟩

example : status ⟨0, 0⟩ sampleObs 5 = .gaveUp 4 := by decide +kernel

theorem sample_frozen : Frozen sampleObs 3 := by
  have lt : ∀ {k i : Nat} {f : Flags}, (sampleObs k).thr[i]? = some f → i < 3 := by
    intro k i f h
    have := (List.getElem?_eq_some_iff.1 h).1
    simpa [sampleObs] using this
  have c3 : ∀ {i : Nat}, i < 3 → i = 0 ∨ i = 1 ∨ i = 2 := by omega
  refine ⟨fun _ => rfl, ?_, ?_, ?_, ?_⟩
  · intro k i
    by_cases h : i < 3
    · rcases c3 h with rfl | rfl | rfl <;> simp [sampleObs]
    · have : 3 ≤ i := by omega
      rw [List.getElem?_eq_none (by simpa [sampleObs] using this),
        List.getElem?_eq_none (by simpa [sampleObs] using this)]
  all_goals
    intro k m i f g hkm hf hg
    rcases c3 (lt hf) with rfl | rfl | rfl <;> simp [sampleObs] at hf hg <;> subst hf hg <;> simp
  all_goals omega

example : Frozen sampleObs 3 ∧ ClockRuns sampleObs ∧ CallbacksTerminate sampleObs ∧
    Begins sampleObs 0 1 ∧ Progress sampleObs 1 := by
  have B : Begins sampleObs 0 1 := by
    refine ⟨⟨_, rfl, ⟨rfl, rfl⟩, by decide⟩, ?_⟩
    intro k hk f hf
    have : k = 0 := by omega
    subst this
    simp [sampleObs] at hf
    subst hf
    simp
  refine ⟨sample_frozen, ?_, ?_, B, begins_progress sample_frozen B⟩
  · intro T
    refine ⟨T.toNat + 1, fun k hk => ?_⟩
    simp only [sampleObs]; omega
  · intro k i f hf hw hs
    refine ⟨3, fun g hg => ?_⟩
    have lt : i < 3 := by
      have := (List.getElem?_eq_some_iff.1 hf).1
      simpa [sampleObs] using this
    have c3 : i = 0 ∨ i = 1 ∨ i = 2 := by omega
    rcases c3 with rfl | rfl | rfl
    · simp [sampleObs] at hg; subst hg; rfl
    · simp [sampleObs] at hf; subst hf; simp [Waits] at hw
    · simp [sampleObs] at hf; subst hf; simp at hs

/-- The assumption on the callbacks is needed: a thread that began finishing and never gets
done (for example because its callback does not return, or ended the thread) keeps the
loop going forever, however long the clock runs; the timeout does not apply. -/
theorem C19_stuck_callback_loops (k : Nat) :
    ∃ s, status ⟨0, 0⟩ (fun k => ⟨[⟨false, true, true, false⟩], ⟨20 * k, 0⟩⟩) k = .running s := by
  have key : ∀ k, (∃ l, status ⟨0, 0⟩
      (fun k => ⟨[⟨false, true, true, false⟩], ⟨20 * k, 0⟩⟩) (k + 1) =
        .running ⟨l, 1⟩) := by
    intro k
    induction k with
    | zero => exact ⟨_, rfl⟩
    | succ k ih =>
      obtain ⟨l, h⟩ := ih
      refine ⟨l, ?_⟩
      rw [status, h]
      simp [iter, scan, scanFrom, visit]
  cases k with
  | zero => exact ⟨_, rfl⟩
  | succ k =>
    obtain ⟨l, h⟩ := key k
    exact ⟨_, h⟩

end Libmonitor.Shoot
