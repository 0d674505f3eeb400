import Verif.Lock.Lemmas

/-!
# C23, C51: the thread-list lock
-/

namespace Libmonitor.Lock

/-- **C23.**  In every execution (any number of threads, signal handlers at any
point, long jumps, cancellation, forks, both implementations of compare-and-swap): at most one frame of one thread is
inside, and while the lock word is 0 nobody is. -/
theorem C23_lock_mutual_exclusion (arch : Arch) (l : List (Tid × Act)) (s : St)
    (h : exec arch l start = some s) :
    (∀ t, (s.stk t).count .crit ≤ 1) ∧
    (∀ t u, Pc.crit ∈ s.stk t → Pc.crit ∈ s.stk u → t = u) ∧
    (s.val = 0 → ∀ t, Pc.crit ∉ s.stk t) := by
  have I := inv_exec arch l inv_start h
  have m : ∀ t, Pc.crit ∈ s.stk t → held s t ≠ 0 := fun t k q => by
    rw [held, List.count_eq_zero] at q; exact q k
  exact ⟨I.one, fun t u a b => I.excl t u (m t a) (m u b),
    fun z t k => m t k (I.free z t)⟩

/-- The lock word is a proper lock word: 0 or 1, whatever happens. -/
theorem C23_lock_word (arch : Arch) (l : List (Tid × Act)) (s : St)
    (h : exec arch l start = some s) : s.val = 0 ∨ s.val = 1 :=
  (inv_exec arch l inv_start h).bit

/-- **C23.**  Without fork and frames left by unwinding, the lock word says exactly whether somebody is inside. -/
theorem C23_lock_word_exact (arch : Arch) (l : List (Tid × Act)) (s : St)
    (hf : ∀ p ∈ l, p.2.leaves = false) (h : exec arch l start = some s) :
    s.val ≠ 0 ↔ ∃ t, Pc.crit ∈ s.stk t := by
  have I := inv_exec arch l inv_start h
  have B := busy_exec arch l (s := start) (fun q => absurd rfl q) hf h
  constructor
  · intro z
    obtain ⟨t, ht⟩ := B z
    refine ⟨t, ?_⟩
    cases hd : decide (Pc.crit ∈ s.stk t) with
    | true => exact of_decide_eq_true hd
    | false => exact absurd (List.count_eq_zero.2 (of_decide_eq_false hd)) ht
  · rintro ⟨t, ht⟩ z
    have := I.free z t
    rw [held, List.count_eq_zero] at this
    exact this ht

/-- **C23.**  A trylock that reports success holds the lock at that point, one that reports
failure met the lock taken by somebody else (or by the code it interrupted). -/
theorem C23_trylock_result (arch : Arch) (l : List (Tid × Act)) (s s' : St) (t : Tid)
    (rest : List Pc) (k : Kind) (hs : exec arch l start = some s)
    (hpc : s.stk t = .cas k :: rest) (hst : step arch s t .run = some s') :
    (s'.stk t = .crit :: rest → s.val = 0 ∧ ∀ u, Pc.crit ∉ s.stk u) ∧
    (s'.stk t = .app :: rest → s.val = 1 ∧ k = .try ∧ s'.tryRes t = some (-1)) := by
  have I := inv_exec arch l inv_start hs
  have hfree : s.val = 0 → ∀ u, Pc.crit ∉ s.stk u := fun z u q => by
    have := I.free z u
    rw [held, List.count_eq_zero] at this
    exact this q
  simp only [step, hpc, runPc] at hst
  by_cases z : s.val = 0
  · cases arch <;> simp only [z, if_true, Option.some.injEq] at hst <;> subst hst
    · refine ⟨fun _ => ⟨z, hfree z⟩, ?_⟩
      cases k <;> simp [acquired, setStk]
    · refine ⟨?_, ?_⟩ <;> simp [setStk]
  · have z1 : s.val = 1 := by rcases I.bit with h | h; exact absurd h z; exact h
    cases arch <;> simp only [z, if_false, Option.some.injEq] at hst <;> subst hst <;>
      cases k <;> simp [failed, setStk, z1]

/-- Two threads compete, a handler interrupts the holder, load-linked loses its
reservation. -/
def busySchedule : List (Tid × Act) :=
  [(0, .spawn 1), (0, .callLock), (1, .callLock), (0, .run), (1, .run), (0, .run), (1, .run),
   (1, .run), (0, .run), (0, .signal), (0, .callTry), (0, .run), (0, .ret), (0, .run), (0, .run)]

example : ((exec .llsc busySchedule start).map fun s => (s.val, s.stk 0, s.stk 1)) =
    some (1, [.spin], [.crit]) := by decide +kernel
example : ((exec .atomic [(0, .spawn 1), (0, .callLock), (1, .callLock), (0, .run), (1, .run),
    (0, .run), (1, .run), (0, .signal), (0, .callTry), (0, .run), (0, .ret), (1, .run)]
    start).map fun s => (s.val, s.stk 0, s.stk 1, s.tryRes 0)) =
    some (1, [.crit], [.spin], some (-1)) := by decide +kernel

/-- **C51.**  A thread that wants the lock while it is free and is not disturbed gets it
within a fixed number of its own steps (spin test, then compare-and-swap). -/
theorem C51_lock_solo_progress_partial (arch : Arch) (s : St) (t : Tid) (rest : List Pc)
    (hz : s.val = 0) (hpc : s.stk t = .spin :: rest) :
    ∃ s', exec arch (List.replicate (if arch = .atomic then 2 else 3) (t, .run)) s = some s' ∧
      s'.stk t = .crit :: rest ∧ s'.val = 1 := by
  cases arch with
  | atomic =>
    refine ⟨acquired (store (setStk s t (.cas .lock :: rest)) 1) t .lock rest, ?_, ?_, rfl⟩
    · simp only [if_true, List.replicate, exec, step, hpc, runPc, hz, Option.bind_some,
        setStk_self]
      simp [setStk, hz]
    · simp [acquired, setStk]
  | llsc =>
    refine ⟨acquired (store (setStk (setRsv (setStk s t (.cas .lock :: rest)) t true) t
      (.sc .lock :: rest)) 1) t .lock rest, ?_, ?_, rfl⟩
    · have e : (if Arch.llsc = Arch.atomic then 2 else 3) = 3 := rfl
      simp only [e, List.replicate, exec, step, hpc, runPc, hz, if_true, Option.bind_some,
        setStk_self]
      have v : (setStk s t (.cas .lock :: rest)).val = 0 := hz
      simp only [v, if_true, Option.bind_some, setStk_self]
      have r : (setStk (setRsv (setStk s t (.cas .lock :: rest)) t true) t
          (.sc .lock :: rest)).rsv t = true := by simp [setStk, setRsv]
      simp only [r, if_true, Option.bind_some]
    · simp [acquired, setStk]

/-- **C51.**  The same from every place inside spinlock_lock, in terms of who is inside: after any execution without
fork and unwinding, if no thread is inside, a thread that wants the lock gets it by at most four steps of its own, also in a
handler (`rest`: what it interrupted). -/
theorem C51_lock_progress_partial (arch : Arch) (l : List (Tid × Act)) (s : St) (t : Tid) (pc : Pc) (rest : List Pc)
    (hf : ∀ p ∈ l, p.2.leaves = false) (hs : exec arch l start = some s) (hno : ∀ u, Pc.crit ∉ s.stk u)
    (hpc : s.stk t = pc :: rest) (hw : pc = .spin ∨ pc = .cas .lock ∨ pc = .sc .lock) :
    ∃ n s', n ≤ 4 ∧ exec arch (List.replicate n (t, .run)) s = some s' ∧ s'.stk t = .crit :: rest := by
  have hz : s.val = 0 := by
    apply Classical.byContradiction
    intro hne
    obtain ⟨u, hu⟩ := (C23_lock_word_exact arch l s hf hs).1 hne
    exact hno u hu
  have add : ∀ {n : Nat} {s1 : St}, step arch s t .run = some s1 → n ≤ 3 →
      (∃ s', exec arch (List.replicate n (t, .run)) s1 = some s' ∧ s'.stk t = .crit :: rest) →
      ∃ n s', n ≤ 4 ∧ exec arch (List.replicate n (t, .run)) s = some s' ∧ s'.stk t = .crit :: rest := by
    rintro n s1 h1 hn ⟨s', h2, h3⟩
    refine ⟨n + 1, s', by omega, ?_, h3⟩
    rw [List.replicate_succ, exec, h1]
    exact h2
  have one : ∀ {s1 : St}, step arch s t .run = some s1 → s1.stk t = .crit :: rest →
      ∃ n s', n ≤ 4 ∧ exec arch (List.replicate n (t, .run)) s = some s' ∧ s'.stk t = .crit :: rest :=
    fun h1 h2 => add h1 (Nat.zero_le 3) ⟨_, rfl, h2⟩
  have cas : ∀ s1 : St, s1.val = 0 → s1.stk t = .cas .lock :: rest →
      ∃ n, n ≤ 2 ∧ ∃ s', exec arch (List.replicate n (t, .run)) s1 = some s' ∧ s'.stk t = .crit :: rest := by
    intro s1 hz1 hst
    cases arch with
    | atomic =>
      refine ⟨1, by omega, acquired (store s1 1) t .lock rest, ?_, by simp [acquired, setStk]⟩
      simp [exec, step, hst, runPc, hz1]
    | llsc =>
      refine ⟨2, by omega, acquired (store (setStk (setRsv s1 t true) t (.sc .lock :: rest)) 1) t .lock rest, ?_,
        by simp [acquired, setStk]⟩
      have r : (setStk (setRsv s1 t true) t (.sc .lock :: rest)).rsv t = true := by simp [setStk, setRsv]
      simp only [List.replicate, exec, step, hst, runPc, hz1, if_true, Option.bind_some, setStk_self, r]
  rcases hw with rfl | rfl | rfl
  · obtain ⟨n, hn, hx⟩ := cas (setStk s t (.cas .lock :: rest)) hz (setStk_self _ _ _)
    refine add (s1 := setStk s t (.cas .lock :: rest)) ?_ (by omega : n ≤ 3) hx
    simp [step, hpc, runPc, hz]
  · obtain ⟨n, hn, s', h1, h2⟩ := cas s hz hpc
    exact ⟨n, s', by omega, h1, h2⟩
  · by_cases hr : s.rsv t = true
    · refine one (s1 := acquired (store s 1) t .lock rest) ?_ (by simp [acquired, setStk])
      simp [step, hpc, runPc, hr]
    · obtain ⟨n, hn, hx⟩ := cas (setStk s t (.cas .lock :: rest)) hz (setStk_self _ _ _)
      refine add (s1 := setStk s t (.cas .lock :: rest)) ?_ (by omega : n ≤ 3) hx
      simp [step, hpc, runPc, hr]

/-- A thread whose reservation was lost, in a handler, while nobody is inside. -/
example : ((exec .llsc [(0, .callTry), (0, .signal), (0, .callLock), (0, .run), (0, .run), (0, .lose)] start).map
    fun s => (s.stk 0, s.rsv 0, s.val)) = some ([.sc .lock, .cas .try], false, 0) := by decide +kernel

example : (start.stk 0 = [.app]) ∧ (exec .llsc [(0, .callLock)] start).isSome := by
  decide +kernel

/-- **C51** fails for fork children: thread 1 forks while thread 0 is inside; in
the child nobody is inside, yet the lock word stays 1 forever and no thread of the child
ever gets the lock, whatever happens. -/
theorem C51_fork_child_lock_lost (arch : Arch) :
    ∃ l s, exec arch l start = some s ∧ (∃ t, s.stk t ≠ []) ∧ (∀ t, Pc.crit ∉ s.stk t) ∧
      ∀ l' s', exec arch l' s = some s' → s'.val = 1 ∧ ∀ t, Pc.crit ∉ s'.stk t := by
  have no : ∀ {s : St}, Lost s → ∀ t, Pc.crit ∉ s.stk t := fun L t k => by
    have := L.none t
    rw [held, List.count_eq_zero] at this
    exact this k
  have key : ∀ (s : St), s.val = 1 →
      s.stk 1 = [.app] → (∀ t, t ≠ 1 → s.stk t = []) →
      (∃ t, s.stk t ≠ []) ∧ (∀ t, Pc.crit ∉ s.stk t) ∧
      ∀ l' s', exec arch l' s = some s' → s'.val = 1 ∧ ∀ t, Pc.crit ∉ s'.stk t := by
    intro s hv h1 ho
    have L : Lost s := by
      refine ⟨hv, fun t => ?_, fun t k rest e => ?_⟩
      · by_cases q : t = 1
        · subst q; simp [held, h1]
        · simp [held, ho t q]
      · by_cases q : t = 1
        · subst q; simp [h1] at e
        · simp [ho t q] at e
    refine ⟨⟨1, by simp [h1]⟩, no L, fun l' s' h => ?_⟩
    have L' := lost_exec arch l' L h
    exact ⟨L'.val, no L'⟩
  cases arch with
  | atomic =>
    refine ⟨[(0, .spawn 1), (0, .callLock), (0, .run), (0, .run), (1, .fork)], _, rfl,
      key _ rfl rfl ?_⟩
    intro t q
    simp [q]
  | llsc =>
    refine ⟨[(0, .spawn 1), (0, .callLock), (0, .run), (0, .run), (0, .run), (1, .fork)], _, rfl,
      key _ rfl rfl ?_⟩
    intro t q
    simp [q]

/-- **C51** fails if the holder is interrupted and the handler ends the thread or jumps out of the protected section
(`n` = 2 and 1): nobody is inside, and no thread ever gets the lock again. -/
theorem C51_unwound_lock_lost (arch : Arch) (n : Nat) (hn : n = 1 ∨ n = 2) :
    ∃ l s, exec arch (l ++ [(0, .unwind n)]) start = some s ∧ (∀ p ∈ l, p.2.leaves = false) ∧
      (s.stk 0 = if n = 1 then [.app] else []) ∧ s.stk 1 = [.app] ∧
      ∀ l' s', exec arch l' s = some s' → s'.val = 1 ∧ ∀ t, Pc.crit ∉ s'.stk t := by
  have key : ∀ (s : St), s.val = 1 → (∀ t, s.stk t = [] ∨ s.stk t = [.app]) →
      ∀ l' s', exec arch l' s = some s' → s'.val = 1 ∧ ∀ t, Pc.crit ∉ s'.stk t := by
    intro s hv ho l' s' h
    have L : Lost s := by
      refine ⟨hv, fun t => ?_, fun t k rest e => ?_⟩
      · rcases ho t with q | q <;> simp [held, q]
      · rcases ho t with q | q <;> simp [q] at e
    have L' := lost_exec arch l' L h
    refine ⟨L'.val, fun t k => ?_⟩
    have := L'.none t
    rw [held, List.count_eq_zero] at this
    exact this k
  have all : ∀ {s : St}, (∀ t, t ≠ 0 → t ≠ 1 → s.stk t = []) → s.stk 1 = [.app] →
      (s.stk 0 = [] ∨ s.stk 0 = [.app]) → ∀ t, s.stk t = [] ∨ s.stk t = [.app] := by
    intro s h h1 h0 t
    by_cases q : t = 0
    · subst q; exact h0
    · by_cases q1 : t = 1
      · subst q1; exact .inr h1
      · exact .inl (h t q q1)
  cases arch with
  | atomic =>
    rcases hn with rfl | rfl <;>
    refine ⟨[(0, .spawn 1), (0, .callLock), (0, .run), (0, .run), (0, .signal)], _, rfl, by decide, rfl, rfl,
      key _ rfl (all (fun t q q1 => ?_) rfl (by first | exact .inl rfl | exact .inr rfl))⟩ <;>
    simp [setStk, setRsv, acquired, store, start, q, q1]
  | llsc =>
    rcases hn with rfl | rfl <;>
    refine ⟨[(0, .spawn 1), (0, .callLock), (0, .run), (0, .run), (0, .run), (0, .signal)], _, rfl, by decide, rfl, rfl,
      key _ rfl (all (fun t q q1 => ?_) rfl (by first | exact .inl rfl | exact .inr rfl))⟩ <;>
    simp [setStk, setRsv, acquired, store, start, q, q1]

/-- A step of thread `t` keeps the frames below the running one; a step of another thread
that is not a fork keeps all of them. -/
theorem stuck_step (arch : Arch) {s s' : St} {t u : Tid} {a : Act} (I : Inv s)
    (fs : List Pc) (h : s.stk t = fs ++ [.spin, .crit]) (hf : a.leaves = false)
    (hst : step arch s u a = some s') : ∃ fs', s'.stk t = fs' ++ [.spin, .crit] := by
  have hz : s.val ≠ 0 := by
    intro z
    have := I.free z t
    rw [held, List.count_eq_zero] at this
    exact this (by simp [h])
  have other : (∀ v, v ≠ u → s'.stk v = s.stk v) → u ≠ t →
      ∃ fs', s'.stk t = fs' ++ [.spin, .crit] := fun k q =>
    ⟨fs, (k t (Ne.symm q)).trans h⟩
  unfold step at hst
  cases hs : s.stk u with
  | nil => simp [hs] at hst
  | cons pc rest =>
    simp only [hs] at hst
    by_cases q : u = t
    · subst q
      cases fs with
      | nil =>
        rw [h] at hs
        obtain ⟨rfl, rfl⟩ : Pc.spin = pc ∧ [Pc.crit] = rest := by simpa using hs
        cases a with
        | callLock => simp at hst
        | callTry => simp at hst
        | run =>
          simp only [runPc, hz, if_false, Option.some.injEq] at hst
          exact hst ▸ ⟨[], h⟩
        | signal =>
          simp only [Option.some.injEq] at hst
          exact hst ▸ ⟨[.app], by simp [setRsv, setStk]⟩
        | ret => simp at hst
        | lose =>
          simp only [Option.some.injEq] at hst
          exact hst ▸ ⟨[], h⟩
        | spawn v =>
          by_cases k : s.stk v = []
          · simp only [k, if_true, Option.some.injEq] at hst
            have : u ≠ v := by rintro rfl; rw [h] at k; simp at k
            exact hst ▸ ⟨[], by simp [setRsv, setStk, this, h]⟩
          · simp [k] at hst
        | exit => simp at hst
        | unwind n => simp [Act.leaves] at hf
        | fork => simp [Act.leaves] at hf
      | cons pc' fs =>
        rw [h] at hs
        obtain ⟨rfl, rfl⟩ : pc' = pc ∧ fs ++ [.spin, .crit] = rest := by simpa using hs
        cases a with
        | callLock =>
          by_cases k : pc' = .app
          · simp only [k, if_true, Option.some.injEq] at hst
            exact hst ▸ ⟨.spin :: fs, by simp [setStk]⟩
          · simp [k] at hst
        | callTry =>
          by_cases k : pc' = .app
          · simp only [k, if_true, Option.some.injEq] at hst
            exact hst ▸ ⟨.cas .try :: fs, by simp [setStk]⟩
          · simp [k] at hst
        | run =>
          cases pc' with
          | app => simp [runPc] at hst
          | spin =>
            simp only [runPc, hz, if_false, Option.some.injEq] at hst
            exact hst ▸ ⟨.spin :: fs, h⟩
          | cas k =>
            cases arch <;> simp only [runPc, hz, if_false, Option.some.injEq] at hst <;>
              subst hst <;> cases k
            · exact ⟨.spin :: fs, by simp [failed, setStk]⟩
            · exact ⟨.app :: fs, by simp [failed, setStk]⟩
            · exact ⟨.spin :: fs, by simp [failed, setStk]⟩
            · exact ⟨.app :: fs, by simp [failed, setStk]⟩
          | sc k =>
            simp only [runPc] at hst
            by_cases r : s.rsv u = true
            · exact absurd (I.rsv u k _ h r) hz
            · simp only [r, Bool.false_eq_true, if_false, Option.some.injEq] at hst
              exact hst ▸ ⟨.cas k :: fs, by simp [setStk]⟩
          | crit =>
            simp only [runPc, Option.some.injEq] at hst
            exact hst ▸ ⟨.app :: fs, by simp [setStk]⟩
        | signal =>
          simp only [Option.some.injEq] at hst
          exact hst ▸ ⟨.app :: pc' :: fs, by simp [setRsv, setStk]⟩
        | ret =>
          by_cases k : pc' = .app
          · simp only [k, true_and] at hst
            simp at hst
            exact hst ▸ ⟨fs, by simp [setRsv, setStk]⟩
          · simp [k] at hst
        | lose =>
          simp only [Option.some.injEq] at hst
          exact hst ▸ ⟨pc' :: fs, h⟩
        | spawn v =>
          by_cases k : s.stk v = []
          · simp only [k, if_true, Option.some.injEq] at hst
            have : u ≠ v := by rintro rfl; rw [h] at k; simp at k
            exact hst ▸ ⟨pc' :: fs, by simp [setRsv, setStk, this, h]⟩
          · simp [k] at hst
        | exit => simp at hst
        | unwind n => simp [Act.leaves] at hf
        | fork => simp [Act.leaves] at hf
    · cases a with
      | callLock =>
        by_cases k : pc = .app
        · simp only [k, if_true, Option.some.injEq] at hst
          exact other (fun v k => by simp [← hst, setStk, k]) q
        · simp [k] at hst
      | callTry =>
        by_cases k : pc = .app
        · simp only [k, if_true, Option.some.injEq] at hst
          exact other (fun v k => by simp [← hst, setStk, k]) q
        · simp [k] at hst
      | run =>
        refine other (fun v k => ?_) q
        cases pc with
        | app => simp [runPc] at hst
        | spin =>
          simp only [runPc, hz, if_false, Option.some.injEq] at hst
          rw [← hst]
        | cas k' =>
          cases arch <;> simp only [runPc, hz, if_false, Option.some.injEq] at hst <;>
            subst hst <;> cases k' <;> simp [failed, setStk, setRsv, k]
        | sc k' =>
          simp only [runPc] at hst
          by_cases r : s.rsv u = true
          · exact absurd (I.rsv u k' _ hs r) hz
          · simp only [r, Bool.false_eq_true, if_false, Option.some.injEq] at hst
            simp [← hst, setStk, k]
        | crit =>
          simp only [runPc, Option.some.injEq] at hst
          simp [← hst, setStk, store, k]
      | signal =>
        simp only [Option.some.injEq] at hst
        exact other (fun v k => by simp [← hst, setRsv, setStk, k]) q
      | ret =>
        by_cases k : pc = .app ∧ rest ≠ []
        · simp only [k, if_true, Option.some.injEq, ne_eq, not_false_eq_true, and_self] at hst
          exact other (fun v k => by simp [← hst, setRsv, setStk, k]) q
        · simp [k] at hst
      | lose =>
        simp only [Option.some.injEq] at hst
        exact other (fun v k => by simp [← hst, setRsv]) q
      | spawn v =>
        by_cases k : s.stk v = []
        · simp only [k, if_true, Option.some.injEq] at hst
          have : t ≠ v := by rintro rfl; rw [h] at k; simp at k
          exact hst ▸ ⟨fs, by simp [setRsv, setStk, this, h]⟩
        · simp [k] at hst
      | exit =>
        by_cases k : pc = .app ∧ rest = []
        · simp only [k, if_true, Option.some.injEq, and_self] at hst
          exact other (fun v k => by simp [← hst, setStk, k]) q
        · simp [k] at hst
      | unwind n => simp [Act.leaves] at hf
      | fork => simp [Act.leaves] at hf

/-- **C51** fails inside signal handlers: a handler that interrupts the holder of the lock and
asks for it (for example by calling exit, main.c:590 → pthread.c:529) waits forever: whatever
happens afterwards in this process, that frame is still waiting, on top of the frame that
holds the lock, and the lock word is still 1. -/
theorem C51_handler_self_deadlock (arch : Arch) (l : List (Tid × Act)) (s : St) (t : Tid)
    (hs : exec arch l start = some s) (h : s.stk t = [.spin, .crit]) (l' : List (Tid × Act))
    (s' : St) (hf : ∀ p ∈ l', p.2.leaves = false) (hs' : exec arch l' s = some s') :
    s'.val = 1 ∧ ∃ handlers, s'.stk t = handlers ++ [.spin, .crit] := by
  have key : ∀ (l' : List (Tid × Act)) (s : St) (fs : List Pc), Inv s →
      s.stk t = fs ++ [.spin, .crit] → (∀ p ∈ l', p.2.leaves = false) → exec arch l' s = some s' →
      Inv s' ∧ ∃ fs', s'.stk t = fs' ++ [.spin, .crit] := by
    intro l'
    induction l' with
    | nil =>
      intro s fs I h _ hs'
      simp only [exec, Option.some.injEq] at hs'
      exact hs' ▸ ⟨I, fs, h⟩
    | cons p l' ih =>
      intro s fs I h hf hs'
      obtain ⟨u, a⟩ := p
      simp only [exec] at hs'
      cases h1 : step arch s u a with
      | none => simp [h1] at hs'
      | some s1 =>
        simp only [h1, Option.bind_some] at hs'
        obtain ⟨fs1, h2⟩ := stuck_step arch I fs h (hf (u, a) (by simp)) h1
        exact ih s1 fs1 (inv_step arch I h1) h2 (fun p hp => hf p (by simp [hp])) hs'
  obtain ⟨I', fs', e⟩ := key l' s [] (inv_exec arch l inv_start hs) h hf hs'
  refine ⟨?_, fs', e⟩
  rcases I'.bit with z | z
  · have := I'.free z t
    rw [held, List.count_eq_zero] at this
    exact absurd (by simp [e]) this
  · exact z

/-- Such a state is reachable: thread 0 is interrupted inside the protected section. -/
example : ((exec .atomic [(0, .callLock), (0, .run), (0, .run), (0, .signal), (0, .callLock)]
    start).map fun s => s.stk 0) = some [.spin, .crit] := by decide +kernel

end Libmonitor.Lock
