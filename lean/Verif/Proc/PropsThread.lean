import Verif.Proc.LifeClean
import Verif.Proc.Sched
/-!
# C09, C11, C13, C15: numbers, start and end of created threads
-/

namespace Libmonitor.Proc

theorem Always.imp {P Q : Hist → Tid → Ev → Prop} (h : ∀ old t e, P old t e → Q old t e) :
    ∀ {tr : Hist}, Always P tr → Always Q tr
  | [], _ => trivial
  | (t, e) :: tr, hA => ⟨h tr t e hA.1, Always.imp h hA.2⟩

theorem Always.and {P Q : Hist → Tid → Ev → Prop} :
    ∀ {tr : Hist}, Always P tr → Always Q tr → Always (fun old t e => P old t e ∧ Q old t e) tr
  | [], _, _ => trivial
  | _ :: _, h, h' => ⟨⟨h.1, h'.1⟩, Always.and h.2 h'.2⟩

/-- What holds at each event holds, at an event, of all that came before. -/
theorem Always.past {P : Hist → Tid → Ev → Prop} :
    ∀ {tr : Hist}, Always P tr → Always (fun old t e => Always P old ∧ P old t e) tr
  | [], _ => trivial
  | _ :: _, h => ⟨⟨h.2, h.1⟩, Always.past h.2⟩

theorem Always.mem {P : Hist → Tid → Ev → Prop} {t : Tid} {e : Ev} :
    ∀ {tr : Hist}, Always P tr → (t, e) ∈ tr → ∃ a old, tr = a ++ (t, e) :: old ∧ P old t e
  | [], _, h => absurd h (by simp)
  | x :: tr, hA, h => by
    rcases List.mem_cons.1 h with h | h
    · subst h; exact ⟨[], tr, rfl, hA.1⟩
    · obtain ⟨a, old, e1, e2⟩ := Always.mem hA.2 h
      exact ⟨x :: a, old, by rw [e1]; rfl, e2⟩

theorem linked_unique {tr : Hist} (h : Always lifeOrder tr) {u w : Tid} {k : Int}
    (h1 : (u, .linked k) ∈ tr) (h2 : (w, .linked k) ∈ tr) : u = w := by
  induction tr with
  | nil => cases h1
  | cons x tr ih =>
    obtain ⟨t, x⟩ := x
    rcases List.mem_cons.1 h1 with e1 | e1 <;> rcases List.mem_cons.1 h2 with e2 | e2
    · injection e1 with a1 _; injection e2 with a2 _; rw [a1, a2]
    · injection e1 with a1 b1; subst a1; subst b1
      have := h.1.2.1 w k e2; omega
    · injection e2 with a1 b1; subst a1; subst b1
      have := h.1.2.1 u k e1; omega
    · exact ih h.2 e1 e2

/-- The counts along a history. -/
theorem always_once {u : Tid} {p : Ev → Bool} : ∀ {tr : Hist}, occursBy u p tr ≤ 1 →
    Always (fun old t e => t = u → p e = true → ∀ e', (u, e') ∈ old → p e' = false) tr
  | [], _ => trivial
  | (t, e) :: tr, h => by
    have h0 : occursBy u p tr ≤ occursBy u p ((t, e) :: tr) := by
      simp only [occursBy, List.countP_cons]; omega
    refine ⟨fun ht hp e' he => ?_, always_once (Nat.le_trans h0 h)⟩
    subst ht
    cases hp' : p e' with
    | false => rfl
    | true =>
      have h1 := occursBy_pos he hp'
      have h2 : occursBy t p ((t, e) :: tr) = occursBy t p tr + 1 := by
        simp [occursBy, hp]
      omega

theorem always_all {ι : Type} {P : ι → Hist → Tid → Ev → Prop} :
    ∀ {tr : Hist}, (∀ i, Always (P i) tr) → Always (fun old t e => ∀ i, P i old t e) tr
  | [], _ => trivial
  | _ :: _, h => ⟨fun i => (h i).1, always_all (fun i => (h i).2)⟩

/-- C09, the numbers: in every execution they are handed out in increasing order, beginning
above 0. -/
theorem C09_increasing {s : S} (hs : Reach s) :
    Always (fun old _ e => ∀ k, e = .linked k →
      0 < k ∧ ∀ u k', (u, .linked k') ∈ old → k' < k) s.g.tr := by
  refine Always.imp ?_ (life_order hs).1.1
  rintro old t e h k rfl
  exact ⟨h.1, h.2.1⟩

/-- C09: the number passed to init-thread is the one handed out to the calling thread; it is
positive and was passed to no init-thread before, in this process or its ancestors.  A created thread
that asks for its number gets this number (-1 before it has one, and if it is ignored), and 0 is
reported in the main thread only, which never gets anything else.

Missing: executions outside `Clean`; there the claim fails (`C09_number_zero`). -/
theorem C09_thread_numbers_partial {s : S} (hs : ReachA Clean s) :
    Always (fun old t e =>
      (∀ k d, e = .initThread k d →
        (t, .linked k) ∈ old ∧ 0 < k ∧ ∀ u d', (u, .initThread k d') ∉ old) ∧
      (∀ v, e = .gotNum v → (v = 0 ↔ t = mainOf old) ∧
        (t ≠ mainOf old → (v = -1 ∧ ∀ k, (t, .linked k) ∉ old) ∨ (t, .linked v) ∈ old)))
      s.g.tr := by
  have h1 := Always.past (life_order hs).1.1
  have h2 := Always.past (cleanOrder_inv hs)
  have h3 := always_all (fun u => always_once (p := fun e => e.isInitThread || e.isRefused)
    (u := u) (Nat.le_trans (Nat.le_add_left _ _) (life_init hs u)))
  refine Always.imp ?_ (Always.and h1 (Always.and h2 h3))
  rintro old t e ⟨⟨a1, a2⟩, ⟨b1, b2⟩, c⟩
  have hpos : ∀ {u k}, (u, .linked k) ∈ old → 0 < k := by
    intro u k h
    obtain ⟨_, _, _, h⟩ := Always.mem a1 h
    exact h.1
  refine ⟨?_, ?_⟩
  · rintro k d rfl
    refine ⟨b2.1, hpos b2.1, fun u d' hu => ?_⟩
    obtain ⟨a, o, e1, e2⟩ := Always.mem b1 hu
    have hl : (u, Ev.linked k) ∈ old := by
      rw [e1]; exact List.mem_append_right _ (List.mem_cons_of_mem _ e2.1)
    have := linked_unique a1 hl b2.1
    subst this
    exact absurd (c u rfl rfl _ hu) (by simp [Ev.isInitThread])
  · rintro v rfl
    obtain ⟨b3, b4, b5⟩ := b2
    refine ⟨⟨fun hv => ?_, b3⟩, fun hu => ?_⟩
    · by_cases hu : t = mainOf old
      · exact hu
      · rcases b4 hu with h | h
        · omega
        · have := hpos h; omega
    · rcases b4 hu with h | h
      · by_cases hk : ∃ k, (t, .linked k) ∈ old
        · obtain ⟨k, hk⟩ := hk; exact Or.inr (b5 k hu hk)
        · exact Or.inl ⟨h, fun k h' => hk ⟨k, h'⟩⟩
      · exact Or.inr h

/-- Main and two created threads ask for their numbers, and a third one, which gets the first
one's record. -/
example : ∃ s, ReachA Clean s ∧ (0, .gotNum 0) ∈ s.g.tr ∧ (1, .gotNum 1) ∈ s.g.tr ∧
    (2, .gotNum 2) ∈ s.g.tr ∧ (3, .gotNum 3) ∈ s.g.tr ∧ (3, .initThread 3 11) ∈ s.g.tr := by
  obtain ⟨s, hr, hp⟩ := exists_of_runA (A := Clean)
    (ls := three ++ C 0 .num ++ T 0 1 ++ C 1 .num ++ T 1 1 ++ C 2 .num ++ T 2 1 ++ T 1 7 ++
      createN 0 90 91 11 ++ begin 3 7 ++ C 3 .num ++ T 3 1)
    (p := fun s => decide ((0, .gotNum 0) ∈ s.g.tr ∧ (1, .gotNum 1) ∈ s.g.tr ∧
      (2, .gotNum 2) ∈ s.g.tr ∧ (3, .gotNum 3) ∈ s.g.tr ∧ (3, .initThread 3 11) ∈ s.g.tr))
    (by decide +kernel)
  exact ⟨s, hr, of_decide_eq_true hp⟩

/-- Thread 1 forks in its start routine; in the child it creates thread 2, which gets the record
that thread 1 had in the parent; both run the cleanup routine for this record. -/
def orphanCleans : List Lbl :=
  toMain ++ create1 0 70 71 9 ++ begin 1 5 ++ C 1 .fork ++ T 1 1 ++ V 1 9 ++ [.fork 1] ++ T 1 7 ++
    C 1 (.create 80 81) ++ T 1 7 ++ V 1 10 ++ T 1 7 ++ begin 2 6 ++ T 1 2

/-- C09 fails outside `Clean`: a thread that forks in its start routine and returns from it in
the child cleans up a record that belongs to a new thread there; init-thread gets number 0. -/
theorem C09_number_zero : ∃ s, Reach s ∧ ∃ u d, u ≠ mainOf s.g.tr ∧ (u, .initThread 0 d) ∈ s.g.tr := by
  obtain ⟨s, hr, hp⟩ := exists_of_run
    (ls := orphanCleans ++ T 2 2 ++ T 2 4 ++ T 1 1 ++ createN 1 90 91 11 ++ T 3 3 ++ T 1 3 ++ T 3 1)
    (p := fun s => decide (3 ≠ mainOf s.g.tr ∧ (3, .initThread 0 0) ∈ s.g.tr)) (by decide +kernel)
  exact ⟨s, hr, 3, 0, of_decide_eq_true hp⟩

/-- C11, "at most once": a thread enters at most one start routine, and a call of pthread_create
makes at most one thread (all executions). -/
theorem C11_start_once {s : S} (hs : Reach s) (u c : Nat) :
    occursBy u Ev.isStart s.g.tr ≤ 1 ∧ occurs (Ev.isSpawn c) s.g.tr ≤ 1 := by
  refine ⟨?_, occurs_of_oneTok (oneTok_spawnCall c hs)⟩
  have h := life_start hs u
  have h1 : occursBy u Ev.isStart s.g.tr ≤ occursBy u (fun e => e.isStart || e.isRefused) s.g.tr := by
    unfold occursBy
    apply List.countP_mono_left
    intro x _ hx
    simp only [Bool.and_eq_true, Bool.or_eq_true] at hx ⊢
    exact ⟨hx.1, Or.inl hx.2⟩
  omega

/-- C11, the order, in all executions: a start routine is entered after init-thread has
returned in that thread, or in a thread that was made as an ignored one, with that start routine and
argument. -/
theorem C11_init_before_start {s : S} (hs : Reach s) :
    Always (fun old t e => ∀ st ar, e = .start st ar →
      (∃ k v, (t, .initThreadRet k v) ∈ old) ∨ ∃ w c, madeBy old t w c st ar none) s.g.tr := by
  refine Always.imp ?_ (life_order hs).1.1
  rintro old t e h st ar rfl
  exact h

/-- Where a thread comes from. -/
theorem made_from {tr : Hist} (h : Always lifeOrder tr) {u w : Tid} {c st ar : Nat} {o : Option Data}
    (hm : madeBy tr u w c st ar o) : (w, .createCall c st ar) ∈ tr ∧
      ∀ d, o = some d → (w, .preCreateRet c d) ∈ tr ∧ d ≠ ignoreData := by
  cases o with
  | none =>
    obtain ⟨a, old, e1, e2⟩ := Always.mem h hm
    refine ⟨?_, fun d hd => by cases hd⟩
    rw [e1]; exact List.mem_append_right _ (List.mem_cons_of_mem _ e2.1)
  | some d =>
    obtain ⟨n, hm⟩ := hm
    obtain ⟨a, old, e1, e2, e3, e4, _⟩ := Always.mem h hm
    refine ⟨?_, fun d' hd => ?_⟩
    · rw [e1]; exact List.mem_append_right _ (List.mem_cons_of_mem _ e2)
    · injection hd with hd; subst hd
      refine ⟨?_, e4⟩
      rw [e1]; exact List.mem_append_right _ (List.mem_cons_of_mem _ e3)

/-- C11, the values: the start routine and the argument are those of the call of pthread_create
that made the thread; init-thread gets the value that pre-create had returned for that call.

Missing: executions outside `Clean`; there the claim fails (`C11_wrong_start`). -/
theorem C11_values_partial {s : S} (hs : ReachA Clean s) :
    Always (fun old t e =>
      (∀ st ar, e = .start st ar → ∃ w c o, madeBy old t w c st ar o ∧
        (w, .createCall c st ar) ∈ old) ∧
      (∀ k d, e = .initThread k d → ∃ w c st ar, madeBy old t w c st ar (some d) ∧
        (w, .createCall c st ar) ∈ old ∧ (w, .preCreateRet c d) ∈ old)) s.g.tr := by
  refine Always.imp ?_ (Always.and (Always.past (life_order hs).1.1) (cleanOrder_inv hs))
  rintro old t e ⟨⟨a1, a2⟩, b⟩
  refine ⟨?_, ?_⟩
  · rintro st ar rfl
    obtain ⟨w, c, o, h⟩ := b
    exact ⟨w, c, o, h, (made_from a1 h).1⟩
  · rintro k d rfl
    obtain ⟨_, w, c, st, ar, h⟩ := b
    have h' := made_from a1 h
    exact ⟨w, c, st, ar, h, h'.1, (h'.2 d rfl).1⟩

/-- ... and a thread is made once only, so "the call that made the thread" is well defined (all
executions). -/
theorem C11_made_once {s : S} (hs : Reach s) {u w w' c c' st st' ar ar' : Nat} {o o' : Option Data}
    (h : madeBy s.g.tr u w c st ar o) (h' : madeBy s.g.tr u w' c' st' ar' o') :
    w = w' ∧ c = c' ∧ st = st' ∧ ar = ar' ∧ o = o' := by
  have hA := (life_order hs).1.1
  revert h h' hA
  generalize s.g.tr = tr
  intro h h' hA
  induction tr with
  | nil => cases o <;> simp [madeBy] at h
  | cons x tr ih =>
    obtain ⟨t, x⟩ := x
    have key : ∀ {w c st ar o}, madeBy ((t, x) :: tr) u w c st ar o →
        madeBy tr u w c st ar o ∨ (t = w ∧ (∀ w' c' st' ar' o', ¬ madeBy tr u w' c' st' ar' o') ∧
          ((x = .spawnIgn c u st ar ∧ o = none) ∨ ∃ n d, x = .spawn c u n st ar d ∧ o = some d)) := by
      intro w c st ar o hm
      cases o with
      | none =>
        rcases List.mem_cons.1 hm with e | e
        · injection e with e1 e2; subst e1; subst e2
          exact Or.inr ⟨rfl, hA.1.2, Or.inl ⟨rfl, rfl⟩⟩
        · exact Or.inl e
      | some d =>
        obtain ⟨n, hm⟩ := hm
        rcases List.mem_cons.1 hm with e | e
        · injection e with e1 e2; subst e1; subst e2
          exact Or.inr ⟨rfl, hA.1.2.2.2, Or.inr ⟨n, d, rfl, rfl⟩⟩
        · exact Or.inl ⟨n, e⟩
    rcases key h with k | ⟨k1, k2, k3⟩ <;> rcases key h' with k' | ⟨k1', k2', k3'⟩
    · exact ih k k' hA.2
    · exact absurd k (k2' _ _ _ _ _)
    · exact absurd k' (k2 _ _ _ _ _)
    · refine ⟨k1.symm.trans k1', ?_⟩
      rcases k3 with ⟨e, eo⟩ | ⟨n, d, e, eo⟩ <;> rcases k3' with ⟨e', eo'⟩ | ⟨n', d', e', eo'⟩ <;>
        rw [e] at e' <;> injection e' <;> subst_vars <;> exact ⟨rfl, rfl, rfl, rfl⟩

/-- Thread 2 of `three`. -/
example : ∃ s, ReachA Clean s ∧ (2, .start 80 81) ∈ s.g.tr ∧ (2, .initThread 2 10) ∈ s.g.tr ∧
    madeBy s.g.tr 2 0 1 80 81 (some 10) := by
  obtain ⟨s, hr, hp⟩ := exists_of_runA (A := Clean) (ls := three)
    (p := fun s => decide ((2, .start 80 81) ∈ s.g.tr ∧ (2, .initThread 2 10) ∈ s.g.tr ∧
      (0, .spawn 1 2 (.slot 0 1) 80 81 10) ∈ s.g.tr)) (by decide +kernel)
  obtain ⟨h1, h2, h3⟩ := of_decide_eq_true hp
  exact ⟨s, hr, h1, h2, _, h3⟩

/-- C11 fails outside `Clean` (as C09): the record of a new thread is cleared before the start
routine is read from it. -/
theorem C11_wrong_start : ∃ s, Reach s ∧ (3, .start 0 0) ∈ s.g.tr ∧
    madeBy s.g.tr 3 1 3 90 91 (some 11) := by
  obtain ⟨s, hr, hp⟩ := exists_of_run
    (ls := orphanCleans ++ T 2 2 ++ T 2 4 ++ T 1 1 ++ createN 1 90 91 11 ++ T 3 3 ++ T 1 3 ++ T 3 4)
    (p := fun s => decide ((3, .start 0 0) ∈ s.g.tr ∧
      (1, .spawn 3 3 (.slot 0 0) 90 91 11) ∈ s.g.tr)) (by decide +kernel)
  obtain ⟨h1, h2⟩ := of_decide_eq_true hp
  exact ⟨s, hr, h1, _, h2⟩

/-- C13: fini-thread is called in a created thread with the value that init-thread returned in
that thread (and with the same number), so after init-thread has returned.  The exception: the thread
that delivers the exit callbacks called exit inside its init-thread (`C13_exit_in_init`).

Missing: that exception, and executions outside `Clean` (`C13_wrong_thread`). -/
theorem C13_fini_after_init_partial {s : S} (hs : ReachA Clean s) :
    Always (fun old t e => ∀ k d src, e = .finiThread k d src → t ≠ mainOf old →
      (t, .initThreadRet k d) ∈ old ∨ (src = .winner ∧ ∀ k v, (t, .initThreadRet k v) ∉ old))
      s.g.tr := by
  refine Always.imp ?_ (cleanOrder_inv hs)
  rintro old t e h k d src rfl
  exact h

/-- Fini-thread from the cleanup routine (thread 1), from the winner (thread 2) and from the
shootdown handler (thread 3). -/
example : ∃ s, ReachA Clean s ∧ (1, .finiThread 1 5 .cleanup) ∈ s.g.tr ∧
    (2, .finiThread 2 6 .winner) ∈ s.g.tr ∧ (3, .finiThread 3 7 .handler) ∈ s.g.tr := by
  obtain ⟨s, hr, hp⟩ := exists_of_runA (A := Clean)
    (ls := three ++ T 1 7 ++ createN 0 90 91 11 ++ begin 3 7 ++ C 2 .exit ++ T 2 8 ++ D 3 ++ T 3 3 ++
      D 0 ++ T 0 3 ++ T 2 9)
    (p := fun s => decide ((1, .finiThread 1 5 .cleanup) ∈ s.g.tr ∧
      (2, .finiThread 2 6 .winner) ∈ s.g.tr ∧ (3, .finiThread 3 7 .handler) ∈ s.g.tr))
    (by decide +kernel)
  exact ⟨s, hr, of_decide_eq_true hp⟩

/-- C13 fails: a thread calls exit inside its init-thread callback. -/
theorem C13_exit_in_init : ∃ s, ReachA Clean s ∧ (1, .finiThread 1 9 .winner) ∈ s.g.tr ∧
    occursBy 1 Ev.isInitThreadRet s.g.tr = 0 ∧ 1 ≠ mainOf s.g.tr := by
  obtain ⟨s, hr, hp⟩ := exists_of_runA (A := Clean)
    (ls := toMain ++ create1 0 70 71 9 ++ T 1 4 ++ C 1 .exit ++ T 1 8 ++ D 0 ++ T 0 3 ++ T 1 7)
    (p := fun s => decide ((1, .finiThread 1 9 .winner) ∈ s.g.tr ∧
      occursBy 1 Ev.isInitThreadRet s.g.tr = 0 ∧ 1 ≠ mainOf s.g.tr)) (by decide +kernel)
  exact ⟨s, hr, of_decide_eq_true hp⟩

/-- C13 fails outside `Clean`: in `orphanCleans` the child's initial thread runs fini-thread with
the number and data of thread 2, and thread 2 runs it, too. -/
theorem C13_wrong_thread : ∃ s, Reach s ∧ (1, .finiThread 2 6 .cleanup) ∈ own s.g.tr ∧
    (2, .finiThread 2 6 .cleanup) ∈ own s.g.tr ∧ (2, .initThreadRet 2 6) ∈ own s.g.tr := by
  obtain ⟨s, hr, hp⟩ := exists_of_run (ls := orphanCleans ++ T 2 2 ++ T 2 1 ++ T 1 1)
    (p := fun s => decide ((1, .finiThread 2 6 .cleanup) ∈ own s.g.tr ∧
      (2, .finiThread 2 6 .cleanup) ∈ own s.g.tr ∧ (2, .initThreadRet 2 6) ∈ own s.g.tr))
    (by decide +kernel)
  exact ⟨s, hr, of_decide_eq_true hp⟩

/-- C15: a thread that is not ignored gets init-thread, and enters its start routine, only if it
put itself on the list before any exit cleanup began; a thread that is refused because of it never
does either (all executions). -/
theorem C15_no_start_after_cleanup {s : S} (hs : Reach s) :
    Always (fun old t e =>
      (∀ k, e = .linked k → ∀ u, (u, .shootdown) ∉ old) ∧
      (∀ k d, e = .initThread k d → ∃ k', (t, .linked k') ∈ old) ∧
      (∀ st ar, e = .start st ar →
        (∃ k, (t, .linked k) ∈ old) ∨ ∃ w c, madeBy old t w c st ar none)) s.g.tr ∧
    ∀ u, (u, .refused) ∈ s.g.tr →
      occursBy u Ev.isInitThread s.g.tr = 0 ∧ occursBy u Ev.isStart s.g.tr = 0 := by
  refine ⟨?_, fun u hu => ⟨?_, ?_⟩⟩
  · refine Always.imp ?_ (Always.past (life_order hs).1.1)
    rintro old t e ⟨h1, h2⟩
    refine ⟨?_, ?_, ?_⟩
    · rintro k rfl; exact h2.2.2
    · rintro k d rfl; exact h2
    · rintro st ar rfl
      rcases h2 with ⟨k, v, h⟩ | h
      · obtain ⟨a, o, e1, k1, d1, e2⟩ := Always.mem h1 h
        have e2' : (t, Ev.initThread k1 d1) ∈ old := by
          rw [e1]; exact List.mem_append_right _ (List.mem_cons_of_mem _ e2)
        obtain ⟨a, o, e1, k2, e2⟩ := Always.mem h1 e2'
        exact Or.inl ⟨k2, by rw [e1]; exact List.mem_append_right _ (List.mem_cons_of_mem _ e2)⟩
      · exact Or.inr h
  · have h := life_init hs u
    have h1 : occursBy u Ev.isInitThread s.g.tr + occursBy u Ev.isRefused s.g.tr =
        occursBy u (fun e => e.isInitThread || e.isRefused) s.g.tr := by
      unfold occursBy
      induction s.g.tr with
      | nil => rfl
      | cons x tr ih =>
        obtain ⟨t, x⟩ := x
        simp only [List.countP_cons]
        cases x <;> simp [Ev.isInitThread, Ev.isRefused] at * <;> omega
    have := occursBy_pos (p := Ev.isRefused) hu rfl
    omega
  · have h := life_start hs u
    have h1 : occursBy u Ev.isStart s.g.tr + occursBy u Ev.isRefused s.g.tr =
        occursBy u (fun e => e.isStart || e.isRefused) s.g.tr := by
      unfold occursBy
      induction s.g.tr with
      | nil => rfl
      | cons x tr ih =>
        obtain ⟨t, x⟩ := x
        simp only [List.countP_cons]
        cases x <;> simp [Ev.isStart, Ev.isRefused] at * <;> omega
    have := occursBy_pos (p := Ev.isRefused) hu rfl
    omega

/-- A thread created while main is in exit cleanup is refused. -/
example : ∃ s, Reach s ∧ (2, .refused) ∈ s.g.tr ∧ (0, .shootdown) ∈ s.g.tr ∧
    (1, .start 70 71) ∈ s.g.tr := by
  obtain ⟨s, hr, hp⟩ := exists_of_run
    (ls := toMain ++ create1 0 70 71 9 ++ begin 1 5 ++ createN 1 80 81 10 ++ C 0 .exit ++ T 0 7 ++
      T 2 3)
    (p := fun s => decide ((2, .refused) ∈ s.g.tr ∧ (0, .shootdown) ∈ s.g.tr ∧
      (1, .start 70 71) ∈ s.g.tr)) (by decide +kernel)
  exact ⟨s, hr, of_decide_eq_true hp⟩

end Libmonitor.Proc
