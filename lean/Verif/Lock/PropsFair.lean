import Verif.Lock.Fair
/-!
# C74: under a fair scheduler somebody gets the lock
-/

namespace Libmonitor.Lock

/-- **C74.**  Partial: in every fair execution without handlers, forks and spurious losses of reservations, if a thread waits for
the lock then some thread gets it, at this moment or later.  Missing: that it is the one that waits, which is
false (`C74_starves`). -/
theorem C74_progress_partial {arch : Arch} {σ : Nat → St} {act : Nat → Option (Tid × Act)}
    (h : FairRun arch σ act) {i : Nat} {t : Tid} (hw : waits (σ i) t) : ∃ j, i ≤ j ∧ ∃ u, gets σ j u :=
  h.progress hw

/-- A thread that waits for ever is overtaken by others for ever. -/
theorem C74_overtaken_partial {arch : Arch} {σ : Nat → St} {act : Nat → Option (Tid × Act)}
    (h : FairRun arch σ act) {i : Nat} {t : Tid} (hw : ∀ j, i ≤ j → waits (σ j) t) :
    ∀ n, ∃ j, n ≤ j ∧ ∃ u, u ≠ t ∧ gets σ j u := by
  intro n
  obtain ⟨j, hj, u, hg⟩ := h.progress (hw (max i n) (Nat.le_max_left _ _))
  refine ⟨j, Nat.le_trans (Nat.le_max_right _ _) hj, u, ?_, hg⟩
  rintro rfl
  rcases hw (j + 1) (by have := Nat.le_max_left i n; omega) with e | e | e <;>
    · have := hg.2; rw [e] at this; simp at this

/-! ## An execution that meets the hypotheses, in which a thread starves -/

/-- Thread 1 spins; thread 0 is at `p`. -/
private def pair (p : Pc) (v : Int) (r : Bool) : St :=
  { val := v, rsv := fun t => if t = 0 then r else false,
    stk := fun t => if t = 0 then [p] else if t = 1 then [.spin] else [] }

private def cyc (arch : Arch) : Nat → St
  | 0 => pair .app 0 false
  | 1 => pair .spin 0 false
  | 2 => pair (.cas .lock) 0 false
  | 3 => match arch with | .atomic => pair (.cas .lock) 0 false | .llsc => pair (.sc .lock) 0 true
  | _ => pair .crit 1 false

private def cycAct (arch : Arch) : Nat → Option (Tid × Act)
  | 0 => some (0, .callLock)
  | 1 => some (0, .run)
  | 2 => match arch with | .atomic => none | .llsc => some (0, .run)
  | 3 => some (0, .run)
  | 4 => some (1, .run)
  | _ => some (0, .run)

private theorem pair_ext {s : St} {p : Pc} {v : Int} {r : Bool} (hv : s.val = v)
    (hr : ∀ t, s.rsv t = if t = 0 then r else false)
    (hs : ∀ t, s.stk t = if t = 0 then [p] else if t = 1 then [.spin] else [])
    (ht : ∀ t, s.tryRes t = none) : s = pair p v r := by
  obtain ⟨a, b, c, d⟩ := s
  simp only at hv hr hs ht
  simp only [pair, St.mk.injEq]
  exact ⟨hv, funext hr, funext hs, funext ht⟩

private theorem cyc_step (arch : Arch) : ∀ r, r < 6 → match cycAct arch r with
    | none => cyc arch ((r + 1) % 6) = cyc arch r
    | some (t, a) => a.plain = true ∧ step arch (cyc arch r) t a = some (cyc arch ((r + 1) % 6)) := by
  have ext : ∀ {s : St} {p : Pc} {v : Int} {r : Bool}, s.val = v → (∀ t, s.rsv t = if t = 0 then r else false) →
      (∀ t, s.stk t = if t = 0 then [p] else if t = 1 then [.spin] else []) → (∀ t, s.tryRes t = none) →
      some s = some (pair p v r) := fun a b c d => congrArg some (pair_ext a b c d)
  intro r hr
  match r, hr with
  | 0, _ =>
    refine ⟨rfl, ext rfl ?_ ?_ ?_⟩ <;> intro t <;> by_cases h : t = 0 <;> simp [cyc, pair, setStk, h]
  | 1, _ =>
    refine ⟨rfl, ext rfl ?_ ?_ ?_⟩ <;> intro t <;> by_cases h : t = 0 <;> simp [cyc, pair, setStk, h]
  | 2, _ =>
    cases arch with
    | atomic => rfl
    | llsc => refine ⟨rfl, ext rfl ?_ ?_ ?_⟩ <;> intro t <;> by_cases h : t = 0 <;> simp [cyc, pair, setStk, setRsv, h]
  | 3, _ =>
    cases arch with
    | atomic =>
      refine ⟨rfl, ext rfl ?_ ?_ ?_⟩ <;> intro t <;> by_cases h : t = 0 <;>
        simp [cyc, pair, setStk, store, acquired, h]
    | llsc =>
      refine ⟨rfl, ext rfl ?_ ?_ ?_⟩ <;> intro t <;> by_cases h : t = 0 <;>
        simp [cyc, pair, setStk, store, acquired, h]
  | 4, _ => exact ⟨rfl, rfl⟩
  | 5, _ =>
    refine ⟨rfl, ext rfl ?_ ?_ ?_⟩ <;> intro t <;> by_cases h : t = 0 <;> simp [cyc, pair, setStk, store, h]

private theorem mod_hit (i r : Nat) (hr : r < 6) : ∃ j, i ≤ j ∧ j % 6 = r := ⟨6 * i + r, by omega, by omega⟩

/-- **C74** fails for the thread that waits: thread 0 takes and releases the lock again and again; thread 1 tries
infinitely often, always while thread 0 is inside, and never gets it; the scheduler is fair to both. -/
theorem C74_starves (arch : Arch) : ∃ σ act, FairRun arch σ act ∧ (∀ i, waits (σ i) 1) ∧
    (∀ i, ∃ j, i ≤ j ∧ act j = some (1, .run)) ∧ (∀ i, ∃ j, i ≤ j ∧ gets σ j 0) := by
  have stk1 : ∀ r, (cyc arch r).stk 1 = [.spin] := by
    intro r
    match r with
    | 0 | 1 | 2 | 3 | _ + 4 => cases arch <;> rfl
  have one : ∀ i, ∃ j, i ≤ j ∧ cycAct arch (j % 6) = some (1, .run) := fun i => by
    obtain ⟨j, hj, he⟩ := mod_hit i 4 (by omega)
    exact ⟨j, hj, by rw [he]; rfl⟩
  have zero : ∀ i, ∃ j, i ≤ j ∧ cycAct arch (j % 6) = some (0, .run) := fun i => by
    obtain ⟨j, hj, he⟩ := mod_hit i 5 (by omega)
    exact ⟨j, hj, by rw [he]; rfl⟩
  refine ⟨fun i => cyc arch (i % 6), fun i => cycAct arch (i % 6), ⟨?_, ?_, ?_, ?_⟩, fun i => .inl (stk1 _), one, ?_⟩
  · refine ⟨[(0, .spawn 1), (1, .callLock)], by decide, ?_⟩
    refine congrArg some (pair_ext rfl ?_ ?_ ?_) <;> intro t <;> by_cases h : t = 0 <;> by_cases h1 : t = 1 <;>
      simp_all [setStk, setRsv, start]
  · intro t
    show ((cyc arch 0).stk t).length ≤ 1
    simp only [cyc, pair]
    split
    · simp
    · split <;> simp
  · intro i
    have := cyc_step arch (i % 6) (Nat.mod_lt _ (by omega))
    rw [show (i % 6 + 1) % 6 = (i + 1) % 6 by omega] at this
    exact this
  · intro i t p hst _
    by_cases h0 : t = 0
    · subst h0; exact zero i
    · by_cases h1 : t = 1
      · subst h1; exact one i
      · exfalso
        revert hst
        show (cyc arch (i % 6)).stk t ≠ [p]
        have : ∀ r, (cyc arch r).stk t = [] := by
          intro r
          match r with
          | 0 | 1 | 2 | 3 | _ + 4 => cases arch <;> simp [cyc, pair, h0, h1]
        rw [this]; simp
  · intro i
    obtain ⟨j, hj, he⟩ := mod_hit i 3 (by omega)
    refine ⟨j, hj, ?_⟩
    have h4 : (j + 1) % 6 = 4 := by omega
    show Pc.crit ∉ (cyc arch (j % 6)).stk 0 ∧ Pc.crit ∈ (cyc arch ((j + 1) % 6)).stk 0
    rw [he, h4]
    cases arch <;> simp [cyc, pair]

end Libmonitor.Lock
