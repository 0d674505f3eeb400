import Verif.Wm.Spec
/-!
# Invariants for C67 and C68
-/

namespace Libmonitor.Wm

theorem pend_append (b c : List Ent) (a : Loc) : pend (b ++ c) a = (pend c a).or (pend b a) := by
  induction b with
  | nil => simp [pend]
  | cons e b ih =>
    cases e with
    | mark => simpa [pend] using ih
    | st d v n =>
      simp only [List.cons_append, pend, ih]
      cases pend c a <;> simp

theorem pend_none {b : List Ent} {a : Loc} (h : ∀ v n, Ent.st a v n ∉ b) : pend b a = none := by
  induction b with
  | nil => rfl
  | cons e b ih =>
    have ih := ih fun v n hm => h v n (List.mem_cons_of_mem _ hm)
    cases e with
    | mark => simpa [pend] using ih
    | st d v n =>
      simp only [pend, ih]
      split
      · rename_i hd; subst hd; exact absurd List.mem_cons_self (h v n)
      · rfl

theorem pend_mem {b : List Ent} {a : Loc} {x : Val × Nat} (h : pend b a = some x) :
    Ent.st a x.1 x.2 ∈ b := by
  induction b with
  | nil => simp [pend] at h
  | cons e b ih =>
    cases e with
    | mark => exact List.mem_cons_of_mem _ (ih (by simpa [pend] using h))
    | st d v n =>
      simp only [pend] at h
      split at h
      · rename_i y hy
        exact List.mem_cons_of_mem _ (ih (by rw [hy]; exact h))
      · split at h
        · rename_i hd; subst hd
          simp only [Option.some.injEq] at h; subst h
          exact List.mem_cons_self
        · simp at h

theorem leave_spec {A : Arch} {prot : Loc → Bool} {s s' : S} {t : Tid} {i : Nat}
    (h : next A prot s (.leave t i) = some s') :
    ∃ pre e post, s.buf t = pre ++ e :: post ∧ canLeave A pre e = true ∧
      s' = (match e with
        | .mark => s.setBuf t (pre ++ post)
        | .st a v n => (s.setBuf t (pre ++ post)).setMem a (v, n)) := by
  simp only [next] at h
  split at h
  · simp at h
  · rename_i e post hd
    split at h
    · rename_i hc
      refine ⟨(s.buf t).take i, e, post, ?_, hc, ?_⟩
      · rw [← hd, List.take_append_drop]
      · simp only [Option.some.injEq] at h
        rw [← h]
        cases e <;> rfl
    · simp at h

/-- An entry that can leave has no earlier entry for its location in front of it. -/
theorem canLeave_first {A : Arch} {pre : List Ent} {a : Loc} {v : Val} {n : Nat}
    (h : canLeave A pre (.st a v n) = true) : ∀ w k, Ent.st a w k ∉ pre := by
  intro w k hm
  simp only [canLeave] at h
  split at h
  · rw [List.isEmpty_iff] at h; subst h; simp at hm
  · have := List.all_eq_true.mp h _ hm
    simp at this

/-- What the thread reads does not change when one of its stores leaves. -/
theorem view_leave {pre post : List Ent} {a c : Loc} {v : Val} {n : Nat} (m : Loc → Val × Nat)
    (h : ∀ w k, Ent.st a w k ∉ pre) :
    (pend (pre ++ post) c).getD (if c = a then (v, n) else m c) =
      (pend (pre ++ .st a v n :: post) c).getD (m c) := by
  rw [pend_append, pend_append]
  simp only [pend]
  by_cases hc : c = a
  · subst hc
    rw [pend_none h]
    cases pend post c <;> simp
  · have hc' : ¬ a = c := fun e => hc e.symm
    simp only [hc, hc', ↓reduceIte]
    cases pend post c <;> simp

theorem pend_mark (pre post : List Ent) (c : Loc) : pend (pre ++ .mark :: post) c = pend (pre ++ post) c := by
  rw [pend_append, pend_append]; rfl

/-! ### The lock -/

/-- No store to a location of the lock is delayed. -/
def NoProt (prot : Loc → Bool) (b : List Ent) : Prop := ∀ a v n, Ent.st a v n ∈ b → prot a = false

/-- Every delayed store to a location of the lock has a barrier behind it. -/
def Safe (prot : Loc → Bool) (b : List Ent) : Prop :=
  ∀ p a v n q, b = p ++ .st a v n :: q → prot a = true → Ent.mark ∈ q

/-- In the lock or on the way out of it. -/
def Owner (s : S) (t : Tid) : Prop := holds s t ∨ ∃ v n, Ent.st LOCK v n ∈ s.buf t

structure Inv (A : Arch) (prot : Loc → Bool) (s : S) : Prop where
  one : ∀ t u, Owner s t → Owner s u → t = u
  free : (s.mem LOCK).1 = 0 → ∀ t, ¬ Owner s t
  other : ∀ t, ¬ Owner s t → NoProt prot (s.buf t)
  inside : ∀ t, holds s t → ∀ v n, Ent.st LOCK v n ∉ s.buf t
  rel : ∀ t, s.pc t = .rel → A.fenced = true → Safe prot (s.buf t)
  pending : ∀ t pre v n post, s.buf t = pre ++ .st LOCK v n :: post → v = 0 ∧ NoProt prot post ∧
    (∀ w k, Ent.st LOCK w k ∉ pre) ∧ (∀ w k, Ent.st LOCK w k ∉ post) ∧ (A.fenced = true → Safe prot pre)
  seen : ∀ a, prot a = true → a ≠ LOCK → ∀ t, Owner s t → s.view t a = lastStore s.m0 a s.tr
  memory : ∀ a, prot a = true → a ≠ LOCK → (∀ t, ¬ Owner s t) → s.mem a = lastStore s.m0 a s.tr
  hist : (∃ t, holds s t ∧ open' s.tr = [t]) ∨ ((∀ t, ¬ holds s t) ∧ open' s.tr = [])

theorem safe_noprot {prot : Loc → Bool} {b : List Ent} (h : Safe prot b) (hm : Ent.mark ∉ b) :
    NoProt prot b := by
  intro a v n he
  obtain ⟨p, q, rfl⟩ := List.append_of_mem he
  cases hp : prot a with
  | false => rfl
  | true => exact absurd (List.mem_append_right _ (List.mem_cons_of_mem _ (h p a v n q rfl hp))) hm

theorem safe_of_noprot {prot : Loc → Bool} {b : List Ent} (h : NoProt prot b) : Safe prot b := by
  intro p a v n q hb hp
  have := h a v n (by simp [hb])
  rw [this] at hp; simp at hp

theorem safe_mark (prot : Loc → Bool) (b : List Ent) : Safe prot (b ++ [.mark]) := by
  intro p a v n q hb _
  rcases List.append_eq_append_iff.mp hb with ⟨c, h1, h2⟩ | ⟨c, h1, h2⟩
  · cases c with
    | nil => simp at h2
    | cons x c =>
      simp only [List.cons_append, List.cons.injEq, List.nil_eq, List.append_eq_nil_iff] at h2
      simp at h2
  · cases c with
    | nil => simp at h2
    | cons x c =>
      simp only [List.cons_append, List.cons.injEq] at h2
      rw [h2.2]; simp

theorem noprot_sub {prot : Loc → Bool} {b c : List Ent} (h : NoProt prot c) (hs : ∀ e ∈ b, e ∈ c) :
    NoProt prot b := fun a v n he => h a v n (hs _ he)

/-- Safety survives the departure of a store, or of a barrier that is first. -/
theorem safe_remove {prot : Loc → Bool} {pre post : List Ent} {e : Ent} (h : Safe prot (pre ++ e :: post))
    (he : e = .mark → pre = []) : Safe prot (pre ++ post) := by
  intro p a v n q hb hp
  rcases List.append_eq_append_iff.mp hb with ⟨c, h1, h2⟩ | ⟨c, h1, h2⟩
  · -- the store is behind
    subst h1
    have := h (pre ++ e :: c) a v n q (by rw [h2]; simp) hp
    exact this
  · cases c with
    | nil =>
      simp only [List.append_nil] at h1; subst h1
      simp only [List.nil_append] at h2
      exact h (pre ++ [e]) a v n q (by rw [← h2]; simp) hp
    | cons x c =>
      simp only [List.cons_append, List.cons.injEq] at h2
      obtain ⟨rfl, h2⟩ := h2
      have := h p a v n (c ++ e :: post) (by rw [h1]; simp) hp
      rw [h2]
      rcases List.mem_append.mp this with h3 | h3
      · exact List.mem_append_left _ h3
      · rcases List.mem_cons.mp h3 with h3 | h3
        · have := he h3.symm
          rw [this] at h1; simp at h1
        · exact List.mem_append_right _ h3

end Libmonitor.Wm
