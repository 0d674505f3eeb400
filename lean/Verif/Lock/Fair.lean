import Verif.Lock.Lemmas
import Verif.Lock.SpecFair
/-!
# Endless executions: lemmas
-/

namespace Libmonitor.Lock

/-- What plain steps without a thread getting the lock do, if nobody has handlers. -/
theorem plain_step {arch : Arch} {s s' : St} {t : Tid} {a : Act} (hp : a.plain = true)
    (hfl : ∀ u, (s.stk u).length ≤ 1) (h : step arch s t a = some s') :
    (∀ u, (s'.stk u).length ≤ 1) ∧
    (∀ u p, s.stk u = [p] → p ≠ .app → (t, a) ≠ (u, .run) → s'.stk u = [p]) := by
  unfold step at h
  cases hst : s.stk t with
  | nil => simp [hst] at h
  | cons pc rest =>
    have hr : rest = [] := by
      have := hfl t; rw [hst] at this
      cases rest with
      | nil => rfl
      | cons _ _ => simp at this
    subst hr
    simp only [hst] at h
    have upd : ∀ (l : List Pc) (s1 : St), s1.stk = (fun u => if u = t then l else s.stk u) → l.length ≤ 1 →
        (a = .run ∨ pc = .app) →
        (∀ u, (s1.stk u).length ≤ 1) ∧
        (∀ u p, s.stk u = [p] → p ≠ .app → (t, a) ≠ (u, .run) → s1.stk u = [p]) := by
      intro l s1 he hl hc
      rw [he]
      constructor
      · intro u
        by_cases hu : u = t
        · simp only [if_pos hu]; exact hl
        · simp only [if_neg hu]; exact hfl u
      · intro u p hup hpa hne
        by_cases hu : u = t
        · subst hu
          rw [hst] at hup
          simp only [List.cons.injEq, and_true] at hup
          rcases hc with hc | hc
          · exact absurd (by rw [hc]) hne
          · exact absurd (hup ▸ hc) hpa
        · simp only [if_neg hu]; exact hup
    cases a with
    | callLock =>
      by_cases k : pc = .app
      · simp only [k, if_true, Option.some.injEq] at h
        subst h; exact upd _ _ rfl (by simp) (.inr k)
      · simp [k] at h
    | callTry =>
      by_cases k : pc = .app
      · simp only [k, if_true, Option.some.injEq] at h
        subst h; exact upd _ _ rfl (by simp) (.inr k)
      · simp [k] at h
    | run =>
      cases pc with
      | app => simp [runPc] at h
      | spin =>
        simp only [runPc, Option.some.injEq] at h
        split at h
        · subst h; exact upd _ _ rfl (by simp) (.inl rfl)
        · subst h
          refine upd [.spin] _ ?_ (by simp) (.inl rfl)
          funext u
          by_cases hu : u = t
          · rw [if_pos hu, hu, hst]
          · rw [if_neg hu]
      | cas k =>
        cases arch <;> simp only [runPc] at h <;> split at h <;> simp only [Option.some.injEq] at h <;> subst h <;>
          cases k <;> exact upd _ _ rfl (by simp) (.inl rfl)
      | sc k =>
        simp only [runPc] at h
        split at h <;> simp only [Option.some.injEq] at h <;> subst h <;> cases k <;>
          exact upd _ _ rfl (by simp) (.inl rfl)
      | crit =>
        simp only [runPc, Option.some.injEq] at h
        subst h; exact upd _ _ rfl (by simp) (.inl rfl)
    | spawn v =>
      by_cases k : s.stk v = []
      · simp only [k, if_true, Option.some.injEq] at h
        subst h
        constructor
        · intro u
          simp only [setRsv, setStk]
          split
          · simp
          · exact hfl u
        · intro u p hup hpa _
          simp only [setRsv, setStk]
          have : u ≠ v := by rintro rfl; rw [k] at hup; cases hup
          rw [if_neg this]; exact hup
      · simp [k] at h
    | exit =>
      by_cases k : pc = .app
      · simp only [k, and_self, if_true, Option.some.injEq] at h
        subst h; exact upd _ _ rfl (by simp) (.inr k)
      · simp [k] at h
    | signal => simp [Act.plain] at hp
    | ret => simp [Act.plain] at hp
    | lose => simp [Act.plain] at hp
    | unwind n => simp [Act.plain] at hp
    | fork => simp [Act.plain] at hp

/-- While the lock is free and nobody gets it, it stays free, and reservations of threads inside stay. -/
theorem free_step {arch : Arch} {s s' : St} {t : Tid} {a : Act} (hp : a.plain = true) (I : Inv s)
    (h : step arch s t a = some s') (hz : s.val = 0)
    (hng : ∀ u, ¬(Pc.crit ∉ s.stk u ∧ Pc.crit ∈ s'.stk u)) :
    s'.val = 0 ∧ ∀ u p, s.stk u = [p] → p ≠ .app → s.rsv u = true → s'.rsv u = true := by
  have hno : ∀ u, Pc.crit ∉ s.stk u := fun u hc => by
    have := I.free hz u
    rw [held, List.count_eq_zero] at this
    exact this hc
  have hno' : Pc.crit ∉ s'.stk t := fun hc => hng t ⟨hno t, hc⟩
  unfold step at h
  cases hst : s.stk t with
  | nil => simp [hst] at h
  | cons pc rest =>
    simp only [hst] at h
    cases a with
    | callLock =>
      dsimp only at h
      split at h <;> simp only [Option.some.injEq, reduceCtorEq] at h
      subst h; exact ⟨hz, fun u p _ _ hr => hr⟩
    | callTry =>
      dsimp only at h
      split at h <;> simp only [Option.some.injEq, reduceCtorEq] at h
      subst h; exact ⟨hz, fun u p _ _ hr => hr⟩
    | run =>
      cases pc with
      | app => simp [runPc] at h
      | spin =>
        simp only [runPc, hz, if_true, Option.some.injEq] at h
        subst h; exact ⟨hz, fun u p _ _ hr => hr⟩
      | cas k =>
        cases arch with
        | atomic =>
          simp only [runPc, hz, if_true, Option.some.injEq] at h
          subst h
          exfalso; apply hno'; cases k <;> simp [acquired, setStk]
        | llsc =>
          simp only [runPc, hz, if_true, Option.some.injEq] at h
          subst h
          refine ⟨hz, fun u p _ _ hr => ?_⟩
          simp only [setStk, setRsv]
          split
          · rfl
          · exact hr
      | sc k =>
        simp only [runPc] at h
        split at h <;> simp only [Option.some.injEq] at h <;> subst h
        · exfalso; apply hno'; cases k <;> simp [acquired, setStk]
        · exact ⟨hz, fun u p _ _ hr => hr⟩
      | crit => exact absurd (by rw [hst]; simp) (hno t)
    | spawn v =>
      dsimp only at h
      split at h <;> simp only [Option.some.injEq, reduceCtorEq] at h
      rename_i hv
      subst h
      refine ⟨hz, fun u p hu _ hr => ?_⟩
      simp only [setStk, setRsv]
      have : u ≠ v := by rintro rfl; rw [hv] at hu; cases hu
      rw [if_neg this]; exact hr
    | exit =>
      dsimp only at h
      split at h <;> simp only [Option.some.injEq, reduceCtorEq] at h
      subst h; exact ⟨hz, fun u p _ _ hr => hr⟩
    | signal => simp [Act.plain] at hp
    | ret => simp [Act.plain] at hp
    | lose => simp [Act.plain] at hp
    | unwind n => simp [Act.plain] at hp
    | fork => simp [Act.plain] at hp

namespace FairRun

variable {arch : Arch} {σ : Nat → St} {act : Nat → Option (Tid × Act)}

theorem inv (h : FairRun arch σ act) : ∀ i, Inv (σ i) ∧ Busy (σ i) ∧ ∀ t, ((σ i).stk t).length ≤ 1
  | 0 => by
    obtain ⟨l, hl, he⟩ := h.start
    exact ⟨inv_exec arch l inv_start he, busy_exec arch l (s := Lock.start) (fun q => absurd rfl q) hl he, h.flat⟩
  | i + 1 => by
    obtain ⟨I, B, F⟩ := h.inv i
    have hs := h.step i
    revert hs
    cases ha : act i with
    | none => intro hs; simp only at hs; rw [hs]; exact ⟨I, B, F⟩
    | some x =>
      obtain ⟨t, a⟩ := x
      rintro ⟨hp, hs⟩
      refine ⟨inv_step arch I hs, busy_step arch ?_ B hs, (plain_step hp F hs).1⟩
      cases a <;> first | rfl | simp [Act.plain] at hp

/-- A thread inside the lock functions stays where it is up to its next step. -/
theorem stay (h : FairRun arch σ act) {i : Nat} {t : Tid} {p : Pc} (hp : p ≠ .app) (hst : (σ i).stk t = [p]) :
    ∀ n, (∀ j, i ≤ j → j < i + n → act j ≠ some (t, .run)) → (σ (i + n)).stk t = [p]
  | 0, _ => hst
  | n + 1, hno => by
    have ih := h.stay hp hst n (fun j h1 h2 => hno j h1 (by omega))
    have hs := h.step (i + n)
    have hn := hno (i + n) (by omega) (by omega)
    revert hs hn
    show _ → _ → (σ (i + n + 1)).stk t = [p]
    cases ha : act (i + n) with
    | none => intro hs _; simp only at hs; rw [hs]; exact ih
    | some x =>
      obtain ⟨u, a⟩ := x
      rintro ⟨hpl, hs⟩ hn
      exact (plain_step hpl (h.inv (i + n)).2.2 hs).2 t p ih hp (fun e => hn (by rw [e]))

/-- Its next step. -/
theorem nextRun (h : FairRun arch σ act) {i : Nat} {t : Tid} {p : Pc} (hp : p ≠ .app) (hst : (σ i).stk t = [p]) :
    ∃ n, act (i + n) = some (t, .run) ∧ ∀ j, i ≤ j → j < i + n → act j ≠ some (t, .run) := by
  obtain ⟨j, hj, ha⟩ := h.fair i t p hst hp
  have hex : ∃ n, act (i + n) = some (t, .run) := ⟨j - i, by rw [Nat.add_sub_cancel' hj]; exact ha⟩
  clear ha hj
  obtain ⟨n, hn⟩ := hex
  induction n using Nat.strongRecOn with
  | _ n ih =>
    by_cases hm : ∃ m, m < n ∧ act (i + m) = some (t, .run)
    · obtain ⟨m, hlt, hma⟩ := hm
      exact ih m hlt hma
    · refine ⟨n, hn, fun j h1 h2 ha => hm ⟨j - i, by omega, ?_⟩⟩
      rw [Nat.add_sub_cancel' h1]; exact ha

theorem runStep (h : FairRun arch σ act) {i : Nat} {t : Tid} (ha : act i = some (t, .run)) :
    Lock.step arch (σ i) t .run = some (σ (i + 1)) := by
  have := h.step i
  rw [ha] at this
  exact this.2

/-- From a moment with the lock free, if nobody gets it. -/
theorem free_on (h : FairRun arch σ act) {i : Nat} (hz : (σ i).val = 0)
    (hng : ∀ j, i ≤ j → ∀ u, ¬gets σ j u) : ∀ n, (σ (i + n)).val = 0
  | 0 => hz
  | n + 1 => by
    have ih := h.free_on hz hng n
    have hs := h.step (i + n)
    revert hs
    show _ → (σ (i + n + 1)).val = 0
    cases ha : act (i + n) with
    | none => intro hs; simp only at hs; rw [hs]; exact ih
    | some x =>
      obtain ⟨u, a⟩ := x
      rintro ⟨hpl, hs⟩
      have I := (h.inv (i + n)).1
      exact (free_step hpl I hs ih (fun u => hng (i + n) (by omega) u)).1

theorem rsv_on (h : FairRun arch σ act) {i : Nat} (hz : (σ i).val = 0)
    (hng : ∀ j, i ≤ j → ∀ u, ¬gets σ j u) {t : Tid} {p : Pc} (hp : p ≠ .app) (hst : (σ i).stk t = [p])
    (hr : (σ i).rsv t = true) :
    ∀ n, (∀ j, i ≤ j → j < i + n → act j ≠ some (t, .run)) → (σ (i + n)).rsv t = true
  | 0, _ => hr
  | n + 1, hno => by
    have hno' : ∀ j, i ≤ j → j < i + n → act j ≠ some (t, .run) := fun j h1 h2 => hno j h1 (by omega)
    have ih := h.rsv_on hz hng hp hst hr n hno'
    have hst' := h.stay hp hst n hno'
    have hs := h.step (i + n)
    revert hs
    show _ → (σ (i + n + 1)).rsv t = true
    cases ha : act (i + n) with
    | none => intro hs; simp only at hs; rw [hs]; exact ih
    | some x =>
      obtain ⟨u, a⟩ := x
      rintro ⟨hpl, hs⟩
      have I := (h.inv (i + n)).1
      exact (free_step hpl I hs (h.free_on hz hng n) (fun u => hng (i + n) (by omega) u)).2 t p hst' hp ih

/-- At the store-conditional with a reservation. -/
theorem at_sc (h : FairRun arch σ act) {i : Nat} (hz : (σ i).val = 0) {t : Tid}
    (hst : (σ i).stk t = [.sc .lock]) (hr : (σ i).rsv t = true) : ∃ j, i ≤ j ∧ ∃ u, gets σ j u := by
  apply Classical.byContradiction
  intro hc
  have hng : ∀ j, i ≤ j → ∀ u, ¬gets σ j u := fun j hj u hg => hc ⟨j, hj, u, hg⟩
  obtain ⟨n, hrun, hno⟩ := h.nextRun (p := .sc .lock) (by decide) hst
  have hs := h.runStep hrun
  have hst' := h.stay (by decide) hst n hno
  have hr' := h.rsv_on hz hng (by decide) hst hr n hno
  simp only [Lock.step, hst', runPc, hr', if_true, Option.some.injEq] at hs
  refine hng (i + n) (by omega) t ⟨by rw [hst']; simp, ?_⟩
  rw [← hs]; simp [acquired, setStk]

theorem at_cas (h : FairRun arch σ act) {i : Nat} (hz : (σ i).val = 0) {t : Tid}
    (hst : (σ i).stk t = [.cas .lock]) : ∃ j, i ≤ j ∧ ∃ u, gets σ j u := by
  apply Classical.byContradiction
  intro hc
  have hng : ∀ j, i ≤ j → ∀ u, ¬gets σ j u := fun j hj u hg => hc ⟨j, hj, u, hg⟩
  obtain ⟨n, hrun, hno⟩ := h.nextRun (p := .cas .lock) (by decide) hst
  have hs := h.runStep hrun
  have hst' := h.stay (by decide) hst n hno
  have hz' := h.free_on hz hng n
  cases arch with
  | atomic =>
    simp only [Lock.step, hst', runPc, hz', if_true, Option.some.injEq] at hs
    refine hng (i + n) (by omega) t ⟨by rw [hst']; simp, ?_⟩
    rw [← hs]; simp [acquired, setStk]
  | llsc =>
    simp only [Lock.step, hst', runPc, hz', if_true, Option.some.injEq] at hs
    obtain ⟨j, hj, u, hg⟩ := h.at_sc (i := i + n + 1) (h.free_on hz hng (n + 1)) (t := t)
      (by rw [← hs]; simp [setStk]) (by rw [← hs]; simp [setStk, setRsv])
    exact hng j (by omega) u hg

theorem at_free (h : FairRun arch σ act) {i : Nat} (hz : (σ i).val = 0) {t : Tid}
    (hw : waits (σ i) t) : ∃ j, i ≤ j ∧ ∃ u, gets σ j u := by
  rcases hw with hst | hst | hst
  · apply Classical.byContradiction
    intro hc
    have hng : ∀ j, i ≤ j → ∀ u, ¬gets σ j u := fun j hj u hg => hc ⟨j, hj, u, hg⟩
    obtain ⟨n, hrun, hno⟩ := h.nextRun (p := .spin) (by decide) hst
    have hs := h.runStep hrun
    have hst' := h.stay (by decide) hst n hno
    have hz' := h.free_on hz hng n
    simp only [Lock.step, hst', runPc, hz', if_true, Option.some.injEq] at hs
    obtain ⟨j, hj, u, hg⟩ := h.at_cas (i := i + n + 1) (h.free_on hz hng (n + 1)) (t := t)
      (by rw [← hs]; simp [setStk])
    exact hng j (by omega) u hg
  · exact h.at_cas hz hst
  · apply Classical.byContradiction
    intro hc
    have hng : ∀ j, i ≤ j → ∀ u, ¬gets σ j u := fun j hj u hg => hc ⟨j, hj, u, hg⟩
    obtain ⟨n, hrun, hno⟩ := h.nextRun (p := .sc .lock) (by decide) hst
    have hs := h.runStep hrun
    have hst' := h.stay (by decide) hst n hno
    simp only [Lock.step, hst', runPc] at hs
    split at hs <;> simp only [Option.some.injEq] at hs
    · refine hng (i + n) (by omega) t ⟨by rw [hst']; simp, ?_⟩
      rw [← hs]; simp [acquired, setStk]
    · obtain ⟨j, hj, u, hg⟩ := h.at_cas (i := i + n + 1) (h.free_on hz hng (n + 1)) (t := t)
        (by rw [← hs]; simp [setStk])
      exact hng j (by omega) u hg

/-- A thread that waits still waits if it does not get the lock. -/
theorem waits_step (h : FairRun arch σ act) {i : Nat} {t : Tid} (hw : waits (σ i) t) (hng : ¬gets σ i t) :
    waits (σ (i + 1)) t := by
  by_cases ha : act i = some (t, .run)
  · have hs := h.runStep ha
    have hno : Pc.crit ∉ (σ i).stk t := by rcases hw with e | e | e <;> rw [e] <;> simp
    have hn' : Pc.crit ∉ (σ (i + 1)).stk t := fun hc => hng ⟨hno, hc⟩
    rcases hw with e | e | e
    · simp only [Lock.step, e, runPc, Option.some.injEq] at hs
      split at hs
      · right; left; rw [← hs]; simp [setStk]
      · left; rw [← hs]; exact e
    · cases arch <;> simp only [Lock.step, e, runPc] at hs <;> split at hs <;> simp only [Option.some.injEq] at hs
      · exfalso; apply hn'; rw [← hs]; simp [acquired, setStk]
      · left; rw [← hs]; simp [failed, setStk]
      · right; right; rw [← hs]; simp [setStk]
      · left; rw [← hs]; simp [failed, setStk]
    · simp only [Lock.step, e, runPc] at hs
      split at hs <;> simp only [Option.some.injEq] at hs
      · exfalso; apply hn'; rw [← hs]; simp [acquired, setStk]
      · right; left; rw [← hs]; simp [setStk]
  · have key : ∀ p, p ≠ .app → (σ i).stk t = [p] → (σ (i + 1)).stk t = [p] := fun p hp e =>
      h.stay hp e 1 (fun j h1 h2 => by have : j = i := by omega
                                       rw [this]; exact ha)
    rcases hw with e | e | e
    · exact .inl (key _ (by decide) e)
    · exact .inr (.inl (key _ (by decide) e))
    · exact .inr (.inr (key _ (by decide) e))

theorem waits_on (h : FairRun arch σ act) {i : Nat} {t : Tid} (hw : waits (σ i) t)
    (hng : ∀ j, i ≤ j → ∀ u, ¬gets σ j u) : ∀ n, waits (σ (i + n)) t
  | 0 => hw
  | n + 1 => h.waits_step (h.waits_on hw hng n) (hng (i + n) (by omega) t)

/-- Somebody gets the lock. -/
theorem progress (h : FairRun arch σ act) {i : Nat} {t : Tid} (hw : waits (σ i) t) :
    ∃ j, i ≤ j ∧ ∃ u, gets σ j u := by
  by_cases hz : (σ i).val = 0
  · exact h.at_free hz hw
  · obtain ⟨I, B, F⟩ := h.inv i
    obtain ⟨u, hu⟩ := B hz
    have hcu : (σ i).stk u = [.crit] := by
      have hlen := F u
      unfold held at hu
      match he : (σ i).stk u, hlen with
      | [], _ => rw [he] at hu; simp at hu
      | [p], _ =>
        rw [he] at hu
        cases p <;> simp at hu ⊢
      | _ :: _ :: _, hlen => simp at hlen
    apply Classical.byContradiction
    intro hc
    have hng : ∀ j, i ≤ j → ∀ u, ¬gets σ j u := fun j hj u hg => hc ⟨j, hj, u, hg⟩
    obtain ⟨n, hrun, hno⟩ := h.nextRun (p := .crit) (by decide) hcu
    have hs := h.runStep hrun
    have hst' := h.stay (by decide) hcu n hno
    simp only [Lock.step, hst', runPc, Option.some.injEq] at hs
    have hw' := h.waits_on hw hng (n + 1)
    obtain ⟨j, hj, v, hg⟩ := h.at_free (i := i + n + 1) (by rw [← hs]; rfl) hw'
    exact hng j (by omega) v hg

end FairRun

end Libmonitor.Lock
