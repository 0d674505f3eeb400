import Verif.Wm.LockInv
import Verif.Wm.Hist
/-!
# C67: the lock orders memory
-/

namespace Libmonitor.Wm

theorem reach_all {A : Arch} {prot : Loc → Bool} {P : S → Lbl → Prop} {s : S} (hs : ReachA A prot P s) :
    Reach A (fun _ => false) s := by
  induction hs with
  | init m => exact .init m
  | @next s0 s' l _ _ hn ih =>
    refine .next (l := l) ih trivial ?_
    cases l with
    | load t a =>
      simp only [next] at hn ⊢
      split at hn
      · rename_i h; rw [if_pos ⟨h.1, by simp⟩]; exact hn
      · simp at hn
    | store t a v =>
      simp only [next] at hn ⊢
      split at hn
      · rename_i h; rw [if_pos ⟨h.1, by simp⟩]; exact hn
      · simp at hn
    | _ => exact hn

/-- At most one thread is inside, on every machine, from the compare and swap that succeeds to the store
of spinlock_unlock; in the history too. -/
theorem C67_mutex {A : Arch} {prot : Loc → Bool} {s : S} (hs : Reach A prot s) :
    (∀ t u, holds s t → holds s u → t = u) ∧ (open' s.tr).length ≤ 1 := by
  have h := lock_inv (A := A) (.inr (.inr fun _ => rfl)) (reach_all hs)
  refine ⟨fun t u h1 h2 => h.one t u (.inl h1) (.inl h2), ?_⟩
  rcases h.hist with ⟨t, -, e⟩ | ⟨-, e⟩ <;> simp [e]

/-- If stores leave the buffer in order (x86) or spinlock_unlock has its barrier (PowerPC), then inside the
lock memory is sequentially consistent: a load of a location that belongs to the lock gets the value
that was stored last, by whatever thread. -/
theorem C67_lock_partial {A : Arch} (hA : A.fifo = true ∨ A.fenced = true) {prot : Loc → Bool} {s : S}
    (hs : Reach A prot s) {p q : List Ev} {t : Tid} {a : Loc} {v : Val} {n : Nat}
    (htr : s.tr = p ++ .load t a v n :: q) (ha : prot a = true) : (v, n) = lastStore s.m0 a q := by
  have hA' : A.fifo = true ∨ A.fenced = true ∨ ∀ a, prot a = false := by
    rcases hA with h | h
    · exact .inl h
    · exact .inr (.inl h)
  refine each_load (Q := fun m _ a v n q => prot a = true → (v, n) = lastStore m a q) ?_ hs p t a v n q htr ha
  intro s t a hs hi hl ha
  exact (lock_inv hA' hs).seen a ha hl t (.inl (.inl (hi ha)))

/-- On x86. -/
theorem C67_x86 {prot : Loc → Bool} {s : S} (hs : Reach x86 prot s) {p q : List Ev} {t : Tid} {a : Loc}
    {v : Val} {n : Nat} (htr : s.tr = p ++ .load t a v n :: q) (ha : prot a = true) :
    (v, n) = lastStore s.m0 a q := C67_lock_partial (.inl rfl) hs htr ha

/-- On PowerPC. -/
theorem C67_power {prot : Loc → Bool} {s : S} (hs : Reach power prot s) {p q : List Ev} {t : Tid} {a : Loc}
    {v : Val} {n : Nat} (htr : s.tr = p ++ .load t a v n :: q) (ha : prot a = true) :
    (v, n) = lastStore s.m0 a q := C67_lock_partial (.inr rfl) hs htr ha

/-! ### Witnesses -/

def runW (A : Arch) (prot : Loc → Bool) (s : S) : List Lbl → Option S
  | [] => some s
  | l :: ls => (next A prot s l).bind fun s' => runW A prot s' ls

theorem runW_reach {A : Arch} {prot : Loc → Bool} {s s' : S} {ls : List Lbl} (hs : Reach A prot s)
    (h : runW A prot s ls = some s') : Reach A prot s' := by
  induction ls generalizing s with
  | nil => simp only [runW, Option.some.injEq] at h; exact h ▸ hs
  | cons l ls ih =>
    obtain ⟨m, hm, h⟩ := Option.bind_eq_some_iff.mp h
    exact ih (.next hs trivial hm) h

def stW (A : Arch) (prot : Loc → Bool) (ls : List Lbl) : S := (runW A prot (start fun _ => 0) ls).getD (start fun _ => 0)

theorem stW_reach {A : Arch} {prot : Loc → Bool} (ls : List Lbl) : Reach A prot (stW A prot ls) := by
  unfold stW
  cases h : runW A prot (start fun _ => 0) ls with
  | none => exact .init _
  | some s' => exact runW_reach (.init _) h

/-- Thread 1 takes the lock, stores 5 to location 1, gives the lock back; thread 2 takes it and loads. -/
private def sched (power : Bool) : List Lbl :=
  [.lock 1, .test 1, .cas 1, .store 1 1 5, .unlock 1, .rel 1] ++
    (if power then [.leave 1 0, .leave 1 0, .leave 1 0] else [.leave 1 0, .leave 1 0]) ++
  [.trylock 2, .load 2 1]

/-- Hypotheses of `C67_x86` and `C67_power`. -/
example : ∃ s, Reach x86 (· == 1) s ∧
    s.tr = [.load 2 1 5 1, .acq 2, .rel 1, .store 1 1 5 1, .acq 1] ∧ holds s 2 :=
  ⟨stW x86 (· == 1) (sched false), stW_reach _, by decide, .inl (by decide)⟩

example : ∃ s, Reach power (· == 1) s ∧
    s.tr = [.load 2 1 5 1, .acq 2, .rel 1, .store 1 1 5 1, .acq 1] ∧ holds s 2 :=
  ⟨stW power (· == 1) (sched true), stW_reach _, by decide, .inl (by decide)⟩

/-- With a barrier the stores may still leave in any order in front of it. -/
example : ∃ s, Reach power (· == 1) s ∧ (s.mem 2).1 = 7 ∧ (s.mem 1).1 = 0 ∧ s.pc 1 = .out :=
  ⟨stW power (· == 1) [.trylock 1, .store 1 1 5, .store 1 2 7, .unlock 1, .rel 1, .leave 1 1], stW_reach _,
    by decide, by decide, by decide⟩

/-- Without the barrier (64-bit Arm with the GNU builtin): the store of spinlock_unlock may reach memory
before the stores made inside.  Thread 2 gets the lock and still reads the old value. -/
theorem C67_arm : ∃ s, Reach arm (· == 1) s ∧
    s.tr = [.load 2 1 0 0, .acq 2, .rel 1, .store 1 1 5 1, .acq 1] :=
  ⟨stW arm (· == 1) [.lock 1, .test 1, .cas 1, .store 1 1 5, .unlock 1, .rel 1, .leave 1 1, .trylock 2,
    .load 2 1], stW_reach _, by decide⟩

end Libmonitor.Wm
