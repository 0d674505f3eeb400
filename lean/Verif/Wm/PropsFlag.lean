import Verif.Wm.FlagInv
import Verif.Wm.PropsLock
/-!
# C68: flags publish what was stored before them
-/

namespace Libmonitor.Wm

/-- Nothing comes from nowhere, on every machine: a value that is loaded is the initial one, or a thread
has stored it to this location before. -/
theorem C68_source {A : Arch} {prot : Loc → Bool} {s : S} (hs : Reach A prot s) {p q : List Ev} {t : Tid}
    {a : Loc} {v : Val} {n : Nat} (htr : s.tr = p ++ .load t a v n :: q) :
    (v = s.m0 a ∧ n = 0) ∨ ∃ u, Ev.store u a v n ∈ q := by
  refine each_load (Q := fun m _ a v n q => (v = m a ∧ n = 0) ∨ ∃ u, Ev.store u a v n ∈ q) ?_ hs p t a v n q htr
  intro s t a hs _ hl
  have h := src hs
  simp only [S.view]
  cases hx : pend (s.buf t) a with
  | none =>
    rcases h.mem a hl with e | e
    · left; rw [Option.getD_none, e]; exact ⟨rfl, rfl⟩
    · exact .inr e
  | some x => exact .inr ⟨t, h.buf t a x.1 x.2 hl (pend_mem hx)⟩

/-- Stores leave in order (x86).  Thread `t` alone stores to `a` and to the flag `f`.  It stores to `a`
(number `m`), later to `f` (number `k`).  Another thread loads this `f`, and later `a`: what it gets is that
store to `a` or a later one. -/
theorem C68_flag_partial {A : Arch} (hA : A.fifo = true) {prot : Loc → Bool} {t : Tid} {a f : Loc}
    (hl : a ≠ LOCK) (hf : f ≠ LOCK) {s : S}
    (hs : ReachA A prot (Writer t fun b => b = a ∨ b = f) s) {p q r r' : List Ev} {u : Tid} {v w x : Val}
    {n m k : Nat} (htr : s.tr = p ++ .load u a v n :: (q ++ .load u f w k :: (r ++ .store t f w k :: r')))
    (hst : Ev.store t a x m ∈ r') : m ≤ n := by
  have hW : ¬ (fun b => b = a ∨ b = f) LOCK := by
    rintro (e | e)
    · exact hl e.symm
    · exact hf e.symm
  have hnum := (numbers hs).2 (p ++ .load u a v n :: (q ++ .load u f w k :: r)) t f w k r' t a x m
    (by rw [htr]; simp) hst
  refine each_load (Q := fun _ u b _ n tr => b = a → Ev.load u f w k ∈ tr → Ev.store t a x m ∈ tr → m ≤ n) ?_ hs
    p u a v n _ htr rfl (by simp) (by simp [hst])
  intro s u b hs _ _ hb h1 h2
  subst hb
  exact (flag_inv hW hA hs).ev u f w k h1 (.inr rfl) t b x m h2 (.inl rfl) hnum

/-- If that was the only store to `a`, its value is read. -/
theorem C68_once_partial {A : Arch} (hA : A.fifo = true) {prot : Loc → Bool} {t : Tid} {a f : Loc}
    (hl : a ≠ LOCK) (hf : f ≠ LOCK) {s : S}
    (hs : ReachA A prot (Writer t fun b => b = a ∨ b = f) s) {p q r r' : List Ev} {u : Tid} {v w x : Val}
    {n m k : Nat} (htr : s.tr = p ++ .load u a v n :: (q ++ .load u f w k :: (r ++ .store t f w k :: r')))
    (hst : Ev.store t a x m ∈ r')
    (once : ∀ c y j, Ev.store c a y j ∈ s.tr → y = x) (hpos : 0 < m) : v = x := by
  have h1 := C68_flag_partial hA hl hf hs htr hst
  have hs' : Reach A prot s := by
    clear htr hst h1 once
    induction hs with
    | init m => exact .init m
    | next _ _ hn ih => exact .next ih trivial hn
  rcases C68_source hs' htr with ⟨-, h⟩ | ⟨c, h⟩
  · omega
  · exact once c v n (by rw [htr]; exact List.mem_append_right _ (List.mem_cons_of_mem _ h))

/-! ### Witnesses -/

/-- Hypotheses of the theorems: thread 1 stores 5 to location 1, then 1 to the flag at location 2; thread 2
sees the flag and loads 5. -/
example : ∃ s, ReachA x86 (fun _ => false) (Writer 1 fun b => b = 1 ∨ b = 2) s ∧
    s.tr = [.load 2 1 5 1, .load 2 2 1 2, .store 1 2 1 2, .store 1 1 5 1] := by
  have step : ∀ {s s' : S} {l : Lbl}, ReachA x86 (fun _ => false) (Writer 1 fun b => b = 1 ∨ b = 2) s →
      Writer 1 (fun b => b = 1 ∨ b = 2) s l → next x86 (fun _ => false) s l = some s' →
      ReachA x86 (fun _ => false) (Writer 1 fun b => b = 1 ∨ b = 2) s' := .next
  refine ⟨_, step (step (step (step (step (step (.init fun _ => 0) (l := .store 1 1 5) ?_ rfl)
    (l := .store 1 2 1) ?_ rfl) (l := .leave 1 0) trivial rfl) (l := .leave 1 0) trivial rfl)
    (l := .load 2 2) trivial rfl) (l := .load 2 1) trivial rfl, ?_⟩
  · intro _; rfl
  · intro _; rfl
  · rfl

/-- Where stores may leave in another order (PowerPC and Arm: the flags of the library have no barriers), a
thread may see the flag and still read the old value: the exiting thread may find `tn_fini_done` set and
not see what the client's monitor_fini_thread has stored. -/
theorem C68_weak : (∃ s, Reach power (fun _ => false) s ∧
      s.tr = [.load 2 1 0 0, .load 2 2 1 2, .store 1 2 1 2, .store 1 1 5 1]) ∧
    ∃ s, Reach arm (fun _ => false) s ∧
      s.tr = [.load 2 1 0 0, .load 2 2 1 2, .store 1 2 1 2, .store 1 1 5 1] :=
  ⟨⟨stW power _ [.store 1 1 5, .store 1 2 1, .leave 1 1, .load 2 2, .load 2 1], stW_reach _, by decide⟩,
   ⟨stW arm _ [.store 1 1 5, .store 1 2 1, .leave 1 1, .load 2 2, .load 2 1], stW_reach _, by decide⟩⟩

/-- On x86 too a thread may load before its own store is seen: two threads can each set a flag and then read
the other's as unset.  So the machine is not sequentially consistent outside of the lock. -/
theorem C68_dekker : ∃ s, Reach x86 (fun _ => false) s ∧
    s.tr = [.load 2 1 0 0, .load 1 2 0 0, .store 2 2 1 2, .store 1 1 1 1] :=
  ⟨stW x86 _ [.store 1 1 1, .store 2 2 1, .load 1 2, .load 2 1], stW_reach _, by decide⟩

end Libmonitor.Wm
