import Verif.Lock.Model

/-!
# Invariant of the lock
-/

namespace Libmonitor.Lock

/-- The lock invariant. -/
structure Inv (s : St) : Prop where
  one : ∀ t, held s t ≤ 1
  excl : ∀ t u, held s t ≠ 0 → held s u ≠ 0 → t = u
  free : s.val = 0 → ∀ t, held s t = 0
  rsv : ∀ t k rest, s.stk t = .sc k :: rest → s.rsv t = true → s.val = 0
  bit : s.val = 0 ∨ s.val = 1

theorem inv_start : Inv start := by
  have h : ∀ t, held start t = 0 := by
    intro t; by_cases k : t = 0 <;> simp [held, start, k]
  refine ⟨fun t => by simp [h t], fun t _ ht => absurd (h t) ht, fun _ => h, ?_, .inl rfl⟩
  intro t k rest e
  by_cases q : t = 0 <;> simp [start, q] at e

theorem setStk_self (s : St) (t : Tid) (l : List Pc) : (setStk s t l).stk t = l := by
  simp [setStk]

theorem setStk_other (s : St) (t u : Tid) (l : List Pc) (h : u ≠ t) :
    (setStk s t l).stk u = s.stk u := by simp [setStk, h]

theorem left_count (l : List Pc) : (left l).count .crit ≤ l.count .crit := by
  cases l with
  | nil => exact Nat.le_refl _
  | cons p r => simp only [left, List.count_cons]; simp

/-- A step that changes only the frames of `t`, holding no more than before, and that does not
leave `t` at a store-conditional with a reservation. -/
theorem inv_local {s s' : St} {t : Tid} (I : Inv s) (hv : s'.val = s.val)
    (ho : ∀ u, u ≠ t → s'.stk u = s.stk u ∧ (s'.rsv u = true → s.rsv u = true))
    (hh : held s' t ≤ held s t)
    (hr : ∀ k rest, s'.stk t = .sc k :: rest → s'.rsv t = true → s.val = 0) : Inv s' := by
  have hall : ∀ u, held s' u ≤ held s u := by
    intro u
    by_cases q : u = t
    · subst q; exact hh
    · simp [held, (ho u q).1]
  refine ⟨fun u => Nat.le_trans (hall u) (I.one u), fun a b ha hb => ?_, fun h u => ?_,
    fun u k rest e h => ?_, by rw [hv]; exact I.bit⟩
  · have h1 := hall a
    have h2 := hall b
    exact I.excl a b (by omega) (by omega)
  · have h1 := hall u
    have h2 := I.free (hv ▸ h) u
    omega
  · rw [hv]
    by_cases q : u = t
    · subst q; exact hr k rest e h
    · exact I.rsv u k rest ((ho u q).1 ▸ e) ((ho u q).2 h)

/-- Taking the lock when it is free. -/
theorem inv_acquire {s s' : St} {t : Tid} {pc : Pc} {rest : List Pc} (I : Inv s)
    (hpc : s.stk t = pc :: rest) (hz : s.val = 0)
    (hv : s'.val = 1) (hs : s'.stk = fun u => if u = t then .crit :: rest else s.stk u)
    (hr : s'.rsv = fun _ => false) : Inv s' := by
  have h0 := I.free hz
  have hrest : rest.count .crit = 0 := by
    have := h0 t
    rw [held, hpc, List.count_cons] at this
    omega
  have ht : held s' t = 1 := by simp [held, hs, hrest]
  have ho : ∀ u, u ≠ t → held s' u = 0 := by
    intro u q
    have := h0 u
    simpa [held, hs, q] using this
  refine ⟨fun u => ?_, fun a b ha hb => ?_, fun h => ?_, fun u k rest e h => ?_, .inr hv⟩
  · by_cases q : u = t
    · subst q; omega
    · rw [ho u q]; omega
  · by_cases qa : a = t
    · by_cases qb : b = t
      · rw [qa, qb]
      · exact absurd (ho b qb) hb
    · exact absurd (ho a qa) ha
  · rw [hv] at h; cases h
  · rw [hr] at h; cases h

/-- Releasing the lock. -/
theorem inv_release {s s' : St} {t : Tid} {rest : List Pc} (I : Inv s)
    (hpc : s.stk t = .crit :: rest)
    (hv : s'.val = 0) (hs : s'.stk = fun u => if u = t then .app :: rest else s.stk u)
    (hr : s'.rsv = fun _ => false) : Inv s' := by
  have ht : held s t ≠ 0 := by simp [held, hpc]
  have h1 := I.one t
  have hrest : rest.count .crit = 0 := by
    rw [held, hpc, List.count_cons] at h1
    simp at h1
    simpa using h1
  have hall : ∀ u, held s' u = 0 := by
    intro u
    by_cases q : u = t
    · subst q; simp [held, hs, hrest]
    · have : held s u = 0 := by
        cases hu : held s u with
        | zero => rfl
        | succ n => exact absurd (I.excl u t (by omega) ht) q
      simpa [held, hs, q] using this
  refine ⟨fun u => by rw [hall]; omega, fun a _ ha => absurd (hall a) ha, fun _ => hall,
    fun u k rest e h => ?_, .inl hv⟩
  rw [hr] at h; cases h

theorem inv_step (arch : Arch) {s s' : St} {t : Tid} {a : Act} (I : Inv s)
    (h : step arch s t a = some s') : Inv s' := by
  unfold step at h
  cases hst : s.stk t with
  | nil => simp [hst] at h
  | cons pc rest =>
    simp only [hst] at h
    cases a with
    | callLock =>
      by_cases k : pc = .app
      · simp only [k, if_true, Option.some.injEq] at h
        subst h
        refine inv_local (t := t) I rfl (fun u q => ⟨setStk_other _ _ _ _ q, id⟩) ?_ ?_
        · simp [held, hst, k, setStk]
        · intro k' r e; simp [setStk] at e
      · simp [k] at h
    | callTry =>
      by_cases k : pc = .app
      · simp only [k, if_true, Option.some.injEq] at h
        subst h
        refine inv_local (t := t) I rfl (fun u q => ⟨setStk_other _ _ _ _ q, id⟩) ?_ ?_
        · simp [held, hst, k, setStk]
        · intro k' r e; simp [setStk] at e
      · simp [k] at h
    | run =>
      simp only [runPc] at h
      cases pc with
      | app => simp at h
      | spin =>
        simp only [Option.some.injEq] at h
        by_cases z : s.val = 0
        · simp only [z, if_true] at h
          subst h
          refine inv_local (t := t) I rfl (fun u q => ⟨setStk_other _ _ _ _ q, id⟩) ?_ ?_
          · simp [held, hst, setStk]
          · intro k' r e; simp [setStk] at e
        · simp only [z, if_false] at h
          subst h; exact I
      | cas k =>
        cases arch with
        | atomic =>
          by_cases z : s.val = 0
          · simp only [z, if_true, Option.some.injEq] at h
            subst h
            refine inv_acquire (t := t) I hst z ?_ ?_ ?_ <;> cases k <;> rfl
          · simp only [z, if_false, Option.some.injEq] at h
            subst h
            cases k <;>
            refine inv_local (t := t) I rfl (fun u q => ⟨by simp [failed, setStk, q], id⟩) ?_ ?_
            · simp [held, hst, failed, setStk]
            · intro k' r e; simp [failed, setStk] at e
            · simp [held, hst, failed, setStk]
            · intro k' r e; simp [failed, setStk] at e
        | llsc =>
          by_cases z : s.val = 0
          · simp only [z, if_true, Option.some.injEq] at h
            subst h
            refine inv_local (t := t) I rfl (fun u q => ⟨by simp [setRsv, setStk, q],
              by simp [setRsv, setStk, q]⟩) ?_ ?_
            · simp [held, hst, setRsv, setStk]
            · intro k' r _ _; exact z
          · simp only [z, if_false, Option.some.injEq] at h
            subst h
            cases k <;>
            refine inv_local (t := t) I rfl (fun u q => ⟨by simp [failed, setRsv, setStk, q],
              by simp [failed, setRsv, setStk, q]⟩) ?_ ?_
            · simp [held, hst, failed, setRsv, setStk]
            · intro k' r e; simp [failed, setStk] at e
            · simp [held, hst, failed, setRsv, setStk]
            · intro k' r e; simp [failed, setStk] at e
      | sc k =>
        by_cases z : s.rsv t = true
        · simp only [z, if_true, Option.some.injEq] at h
          subst h
          refine inv_acquire (t := t) I hst (I.rsv t k rest hst z) ?_ ?_ ?_ <;> cases k <;> rfl
        · simp only [z, Bool.false_eq_true, if_false, Option.some.injEq] at h
          subst h
          refine inv_local (t := t) I rfl (fun u q => ⟨setStk_other _ _ _ _ q, id⟩) ?_ ?_
          · simp [held, hst, setStk]
          · intro k' r e; simp [setStk] at e
      | crit =>
        simp only [Option.some.injEq] at h
        subst h
        exact inv_release (t := t) I hst rfl rfl rfl
    | signal =>
      simp only [Option.some.injEq] at h
      subst h
      refine inv_local (t := t) I rfl (fun u q => ⟨by simp [setRsv, setStk, q],
        by simp [setRsv, setStk, q]⟩) ?_ ?_
      · simp [held, hst, setRsv, setStk]
      · intro k' r e; simp [setRsv, setStk] at e
    | ret =>
      by_cases k : pc = .app ∧ rest ≠ []
      · simp only [k, if_true, Option.some.injEq, ne_eq, not_false_eq_true, and_self] at h
        subst h
        refine inv_local (t := t) I rfl (fun u q => ⟨by simp [setRsv, setStk, q],
          by simp [setRsv, setStk, q]⟩) ?_ ?_
        · simp [held, hst, setRsv, setStk, k.1]
        · intro k' r _ e; simp [setRsv, setStk] at e
      · simp [k] at h
    | lose =>
      simp only [Option.some.injEq] at h
      subst h
      refine inv_local (t := t) I rfl (fun u q => ⟨by simp [setRsv],
        by simp [setRsv, q]⟩) ?_ ?_
      · simp [held, setRsv]
      · intro k' r _ e; simp [setRsv] at e
    | spawn u =>
      by_cases k : s.stk u = []
      · simp only [k, if_true, Option.some.injEq] at h
        subst h
        refine inv_local (t := u) I rfl (fun v q => ⟨by simp [setRsv, setStk, q],
          by simp [setRsv, setStk, q]⟩) ?_ ?_
        · simp [held, k, setRsv, setStk]
        · intro k' r _ e; simp [setRsv, setStk] at e
      · simp [k] at h
    | exit =>
      by_cases k : pc = .app ∧ rest = []
      · simp only [k, if_true, Option.some.injEq, and_self] at h
        subst h
        refine inv_local (t := t) I rfl (fun u q => ⟨setStk_other _ _ _ _ q, id⟩) ?_ ?_
        · simp [held, hst, k, setStk]
        · intro k' r e; simp [setStk] at e
      · simp [k] at h
    | unwind n =>
      by_cases k : pc = .app
      · dsimp only at h
        rw [if_pos k, Option.some.injEq] at h
        subst h
        refine inv_local (t := t) I rfl (fun u q => ⟨by simp [setRsv, setStk, q],
          by simp [setRsv, setStk, q]⟩) ?_ ?_
        · simp only [held, setRsv, setStk, if_true, hst]
          exact Nat.le_trans (left_count _) ((List.drop_sublist _ _).count_le _)
        · intro k' r _ e; simp [setRsv, setStk] at e
      · simp [k] at h
    | fork =>
      simp only [Option.some.injEq] at h
      subst h
      have hall : ∀ (s' : St) u, s'.stk = (fun u => if u = t then pc :: rest else []) →
          held s' u = if u = t then held s t else 0 := by
        intro s' u hs
        by_cases q : u = t
        · subst q; simp [held, hs, hst]
        · simp [held, hs, q]
      refine ⟨fun u => ?_, fun a b ha hb => ?_, fun h u => ?_, fun u k' r e h => ?_, I.bit⟩
      · rw [hall _ u rfl]
        have := I.one t
        split <;> omega
      · rw [hall _ a rfl] at ha
        rw [hall _ b rfl] at hb
        by_cases qa : a = t <;> by_cases qb : b = t <;> simp_all
      · rw [hall _ u rfl]
        have := I.free h t
        split <;> omega
      · cases h

theorem inv_exec (arch : Arch) : ∀ (l : List (Tid × Act)) {s s' : St}, Inv s →
    exec arch l s = some s' → Inv s'
  | [], s, s', I, h => by simp only [exec, Option.some.injEq] at h; exact h ▸ I
  | (t, a) :: l, s, s', I, h => by
    simp only [exec] at h
    cases hs : step arch s t a with
    | none => simp [hs] at h
    | some s1 =>
      simp only [hs, Option.bind_some] at h
      exact inv_exec arch l (inv_step arch I hs) h

/-- The lock word is 1 only while somebody is inside. -/
def Busy (s : St) : Prop := s.val ≠ 0 → ∃ t, held s t ≠ 0

theorem busy_same {s s' : St} (hv : s'.val = s.val) (hh : ∀ u, held s' u = held s u)
    (B : Busy s) : Busy s' := by
  intro h
  obtain ⟨t, ht⟩ := B (hv ▸ h)
  exact ⟨t, by rw [hh]; exact ht⟩

theorem held_upd {s s' : St} {t : Tid} (ho : ∀ u, u ≠ t → s'.stk u = s.stk u)
    (hh : held s' t = held s t) (u : Tid) : held s' u = held s u := by
  by_cases q : u = t
  · subst q; exact hh
  · simp [held, ho u q]

theorem busy_step (arch : Arch) {s s' : St} {t : Tid} {a : Act} (ha : a.leaves = false) (B : Busy s)
    (h : step arch s t a = some s') : Busy s' := by
  unfold step at h
  cases hst : s.stk t with
  | nil => simp [hst] at h
  | cons pc rest =>
    simp only [hst] at h
    cases a with
    | callLock =>
      by_cases k : pc = .app
      · simp only [k, if_true, Option.some.injEq] at h
        subst h
        exact busy_same (s := s) rfl (held_upd (t := t) (fun u q => setStk_other _ _ _ _ q)
          (by simp [held, hst, k, setStk])) B
      · simp [k] at h
    | callTry =>
      by_cases k : pc = .app
      · simp only [k, if_true, Option.some.injEq] at h
        subst h
        exact busy_same (s := s) rfl (held_upd (t := t) (fun u q => setStk_other _ _ _ _ q)
          (by simp [held, hst, k, setStk])) B
      · simp [k] at h
    | run =>
      simp only [runPc] at h
      cases pc with
      | app => simp at h
      | spin =>
        simp only [Option.some.injEq] at h
        by_cases z : s.val = 0
        · simp only [z, if_true] at h
          subst h
          exact busy_same (s := s) rfl (held_upd (t := t) (fun u q => setStk_other _ _ _ _ q)
            (by simp [held, hst, setStk])) B
        · simp only [z, if_false] at h
          subst h; exact B
      | cas k =>
        cases arch with
        | atomic =>
          by_cases z : s.val = 0
          · simp only [z, if_true, Option.some.injEq] at h
            subst h
            exact fun _ => ⟨t, by cases k <;> simp [held, acquired, setStk]⟩
          · simp only [z, if_false, Option.some.injEq] at h
            subst h
            cases k <;> exact busy_same (s := s) rfl (held_upd (t := t)
              (fun u q => by simp [failed, setStk, q]) (by simp [held, hst, failed, setStk])) B
        | llsc =>
          by_cases z : s.val = 0
          · simp only [z, if_true, Option.some.injEq] at h
            subst h
            exact fun q => absurd z q
          · simp only [z, if_false, Option.some.injEq] at h
            subst h
            cases k <;> exact busy_same (s := s) rfl (held_upd (t := t)
              (fun u q => by simp [failed, setRsv, setStk, q])
              (by simp [held, hst, failed, setRsv, setStk])) B
      | sc k =>
        by_cases z : s.rsv t = true
        · simp only [z, if_true, Option.some.injEq] at h
          subst h
          exact fun _ => ⟨t, by cases k <;> simp [held, acquired, setStk]⟩
        · simp only [z, Bool.false_eq_true, if_false, Option.some.injEq] at h
          subst h
          exact busy_same (s := s) rfl (held_upd (t := t) (fun u q => setStk_other _ _ _ _ q)
            (by simp [held, hst, setStk])) B
      | crit =>
        simp only [Option.some.injEq] at h
        subst h
        exact fun q => absurd rfl q
    | signal =>
      simp only [Option.some.injEq] at h
      subst h
      exact busy_same (s := s) rfl (held_upd (t := t) (fun u q => by simp [setRsv, setStk, q])
        (by simp [held, hst, setRsv, setStk])) B
    | ret =>
      by_cases k : pc = .app ∧ rest ≠ []
      · simp only [k, if_true, Option.some.injEq, ne_eq, not_false_eq_true, and_self] at h
        subst h
        exact busy_same (s := s) rfl (held_upd (t := t) (fun u q => by simp [setRsv, setStk, q])
          (by simp [held, hst, setRsv, setStk, k.1])) B
      · simp [k] at h
    | lose =>
      simp only [Option.some.injEq] at h
      subst h
      exact busy_same (s := s) rfl (fun u => rfl) B
    | spawn u =>
      by_cases k : s.stk u = []
      · simp only [k, if_true, Option.some.injEq] at h
        subst h
        exact busy_same (s := s) rfl (held_upd (t := u) (fun v q => by simp [setRsv, setStk, q])
          (by simp [held, k, setRsv, setStk])) B
      · simp [k] at h
    | exit =>
      by_cases k : pc = .app ∧ rest = []
      · simp only [k, if_true, Option.some.injEq, and_self] at h
        subst h
        exact busy_same (s := s) rfl (held_upd (t := t) (fun u q => setStk_other _ _ _ _ q)
          (by simp [held, hst, k, setStk])) B
      · simp [k] at h
    | unwind n => simp [Act.leaves] at ha
    | fork => simp [Act.leaves] at ha

theorem busy_exec (arch : Arch) : ∀ (l : List (Tid × Act)) {s s' : St}, Busy s →
    (∀ p ∈ l, p.2.leaves = false) → exec arch l s = some s' → Busy s'
  | [], s, s', B, _, h => by simp only [exec, Option.some.injEq] at h; exact h ▸ B
  | (t, a) :: l, s, s', B, hf, h => by
    simp only [exec] at h
    cases hs : step arch s t a with
    | none => simp [hs] at h
    | some s1 =>
      simp only [hs, Option.bind_some] at h
      exact busy_exec arch l (busy_step arch (hf (t, a) (by simp)) B hs)
        (fun p hp => hf p (by simp [hp])) h

/-- Lock word set although nobody is inside: the lock is lost. -/
structure Lost (s : St) : Prop where
  val : s.val = 1
  none : ∀ t, held s t = 0
  sc : ∀ t k rest, s.stk t = .sc k :: rest → s.rsv t = false

theorem lost_step (arch : Arch) {s s' : St} {t : Tid} {a : Act} (L : Lost s)
    (h : step arch s t a = some s') : Lost s' := by
  have mk : ∀ {s' : St} {t : Tid}, s'.val = s.val →
      (∀ u, u ≠ t → s'.stk u = s.stk u ∧ (s.rsv u = false → s'.rsv u = false)) →
      held s' t ≤ held s t →
      (∀ k rest, s'.stk t = .sc k :: rest → s'.rsv t = false) → Lost s' := by
    intro s' t hv ho hh hr
    refine ⟨hv.trans L.val, fun u => ?_, fun u k rest e => ?_⟩
    · by_cases q : u = t
      · subst q
        have := L.none u
        omega
      · have := L.none u
        rwa [held, ← (ho u q).1] at this
    · by_cases q : u = t
      · subst q; exact hr k rest e
      · exact (ho u q).2 (L.sc u k rest ((ho u q).1 ▸ e))
  have z : s.val ≠ 0 := by rw [L.val]; decide
  unfold step at h
  cases hst : s.stk t with
  | nil => simp [hst] at h
  | cons pc rest =>
    simp only [hst] at h
    cases a with
    | callLock =>
      by_cases k : pc = .app
      · simp only [k, if_true, Option.some.injEq] at h
        subst h
        refine mk (t := t) rfl (fun u q => ⟨setStk_other _ _ _ _ q, id⟩) ?_ ?_
        · simp [held, hst, k, setStk]
        · intro k' r e; simp [setStk] at e
      · simp [k] at h
    | callTry =>
      by_cases k : pc = .app
      · simp only [k, if_true, Option.some.injEq] at h
        subst h
        refine mk (t := t) rfl (fun u q => ⟨setStk_other _ _ _ _ q, id⟩) ?_ ?_
        · simp [held, hst, k, setStk]
        · intro k' r e; simp [setStk] at e
      · simp [k] at h
    | run =>
      simp only [runPc] at h
      cases pc with
      | app => simp at h
      | spin =>
        simp only [z, if_false, Option.some.injEq] at h
        subst h; exact L
      | cas k =>
        cases arch with
        | atomic =>
          simp only [z, if_false, Option.some.injEq] at h
          subst h
          cases k <;>
          refine mk (t := t) rfl (fun u q => ⟨by simp [failed, setStk, q], id⟩) ?_ ?_
          · simp [held, hst, failed, setStk]
          · intro k' r e; simp [failed, setStk] at e
          · simp [held, hst, failed, setStk]
          · intro k' r e; simp [failed, setStk] at e
        | llsc =>
          simp only [z, if_false, Option.some.injEq] at h
          subst h
          cases k <;>
          refine mk (t := t) rfl (fun u q => ⟨by simp [failed, setRsv, setStk, q],
            by simp [failed, setRsv, setStk, q]⟩) ?_ ?_
          · simp [held, hst, failed, setRsv, setStk]
          · intro k' r e; simp [failed, setStk] at e
          · simp [held, hst, failed, setRsv, setStk]
          · intro k' r e; simp [failed, setStk] at e
      | sc k =>
        have hr := L.sc t k rest hst
        simp only [hr, Bool.false_eq_true, if_false, Option.some.injEq] at h
        subst h
        refine mk (t := t) rfl (fun u q => ⟨setStk_other _ _ _ _ q, id⟩) ?_ ?_
        · simp [held, hst, setStk]
        · intro k' r e; simp [setStk] at e
      | crit =>
        have := L.none t
        simp [held, hst] at this
    | signal =>
      simp only [Option.some.injEq] at h
      subst h
      refine mk (t := t) rfl (fun u q => ⟨by simp [setRsv, setStk, q],
        by simp [setRsv, setStk, q]⟩) ?_ ?_
      · simp [held, hst, setRsv, setStk]
      · intro k' r e; simp [setRsv, setStk] at e
    | ret =>
      by_cases k : pc = .app ∧ rest ≠ []
      · simp only [k, if_true, Option.some.injEq, ne_eq, not_false_eq_true, and_self] at h
        subst h
        refine mk (t := t) rfl (fun u q => ⟨by simp [setRsv, setStk, q],
          by simp [setRsv, setStk, q]⟩) ?_ ?_
        · simp [held, hst, setRsv, setStk, k.1]
        · intro k' r _; simp [setRsv, setStk]
      · simp [k] at h
    | lose =>
      simp only [Option.some.injEq] at h
      subst h
      refine mk (t := t) rfl (fun u q => ⟨by simp [setRsv],
        by simp [setRsv, q]⟩) ?_ ?_
      · simp [held, setRsv]
      · intro k' r _; simp [setRsv]
    | spawn u =>
      by_cases k : s.stk u = []
      · simp only [k, if_true, Option.some.injEq] at h
        subst h
        refine mk (t := u) rfl (fun v q => ⟨by simp [setRsv, setStk, q],
          by simp [setRsv, setStk, q]⟩) ?_ ?_
        · simp [held, k, setRsv, setStk]
        · intro k' r _; simp [setRsv, setStk]
      · simp [k] at h
    | exit =>
      by_cases k : pc = .app ∧ rest = []
      · simp only [k, if_true, Option.some.injEq, and_self] at h
        subst h
        refine mk (t := t) rfl (fun u q => ⟨setStk_other _ _ _ _ q, id⟩) ?_ ?_
        · simp [held, hst, k, setStk]
        · intro k' r e; simp [setStk] at e
      · simp [k] at h
    | unwind n =>
      by_cases k : pc = .app
      · dsimp only at h
        rw [if_pos k, Option.some.injEq] at h
        subst h
        refine mk (t := t) rfl (fun u q => ⟨by simp [setRsv, setStk, q],
          by simp [setRsv, setStk, q]⟩) ?_ ?_
        · simp only [held, setRsv, setStk, if_true, hst]
          exact Nat.le_trans (left_count _) ((List.drop_sublist _ _).count_le _)
        · intro k' r _; simp [setRsv, setStk]
      · simp [k] at h
    | fork =>
      simp only [Option.some.injEq] at h
      subst h
      refine ⟨L.val, fun u => ?_, fun _ _ _ _ => rfl⟩
      by_cases q : u = t
      · subst q; simpa [held, hst] using L.none u
      · simp [held, q]

theorem lost_exec (arch : Arch) : ∀ (l : List (Tid × Act)) {s s' : St}, Lost s →
    exec arch l s = some s' → Lost s'
  | [], s, s', I, h => by simp only [exec, Option.some.injEq] at h; exact h ▸ I
  | (t, a) :: l, s, s', I, h => by
    simp only [exec] at h
    cases hs : step arch s t a with
    | none => simp [hs] at h
    | some s1 =>
      simp only [hs, Option.bind_some] at h
      exact lost_exec arch l (lost_step arch I hs) h

end Libmonitor.Lock
