import Verif.Proc.SpecWait
/-!
# Vocabulary: executions under a fair scheduler
-/

namespace Libmonitor.Proc

/-- At the end of a pass of the loop that waits for the fini-thread calls, where the clock is read
(pthread.c:603-617). -/
def Frame.readsClock : Frame → Bool
  | .sdScan _ [] _ _ => true
  | _ => false

/-- What is done at a moment: nothing, or a step of a thread, with the outcome of its external call
and the value its foreign code returns. -/
abbrev Act := Option (Tid × Bool × Nat)

/-- An endless execution `σ` after an orderly one, in which the threads go on: nothing new is
called and no signal arrives, client and application code returns, external calls succeed or fail.

* `fair`: a thread that from some time on could always go on goes on;
* `clock`: at some time the timeout of the shootdown is over. -/
structure FairRun (σ : Nat → S) (act : Nat → Act) : Prop where
  start : ReachA Orderly (σ 0)
  step : ∀ i, match act i with
    | none => σ (i + 1) = σ i
    | some (u, ok, v) => Orderly (σ i) (.step u (.go ok v)) ∧
        next (σ i) (.step u (.go ok v)) = some (σ (i + 1))
  fair : ∀ i u, (∀ j, i ≤ j → ∃ s', next (σ j) (.step u (.go true 0)) = some s') →
    ∃ j, i ≤ j ∧ ∃ ok v, act j = some (u, ok, v)
  clock : ∃ i, ∀ j, i ≤ j → ∀ u ok v, act j = some (u, ok, v) → top (σ j) u Frame.readsClock →
    ok = true

end Libmonitor.Proc
