import Verif.Lock.Model
/-!
# Vocabulary for C74: endless executions
-/

namespace Libmonitor.Lock

/-- Steps of the threads themselves: no handlers, no lost reservations, no children. -/
def Act.plain : Act → Bool
  | .callLock | .callTry | .run | .spawn _ | .exit => true
  | .signal | .ret | .lose | .unwind _ | .fork => false

/-- An endless execution `σ`, after any execution without fork and unwinding that left no handler running.  At a moment nothing
is done, or what `act` says.  Fairness: a thread inside the lock functions, or inside the lock, goes on. -/
structure FairRun (arch : Arch) (σ : Nat → St) (act : Nat → Option (Tid × Act)) : Prop where
  start : ∃ l, (∀ p ∈ l, p.2.leaves = false) ∧ exec arch l start = some (σ 0)
  flat : ∀ t, ((σ 0).stk t).length ≤ 1
  step : ∀ i, match act i with
    | none => σ (i + 1) = σ i
    | some (t, a) => a.plain = true ∧ step arch (σ i) t a = some (σ (i + 1))
  fair : ∀ i t p, (σ i).stk t = [p] → p ≠ .app → ∃ j, i ≤ j ∧ act j = some (t, .run)

/-- In spinlock_lock. -/
def waits (s : St) (t : Tid) : Prop := s.stk t = [.spin] ∨ s.stk t = [.cas .lock] ∨ s.stk t = [.sc .lock]

/-- At moment `j`, thread `u` gets the lock. -/
def gets (σ : Nat → St) (j : Nat) (u : Tid) : Prop := Pc.crit ∉ (σ j).stk u ∧ Pc.crit ∈ (σ (j + 1)).stk u

end Libmonitor.Lock
