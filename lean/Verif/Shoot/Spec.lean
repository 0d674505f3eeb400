import Verif.Shoot.Model

/-!
# What the loop should do
-/

namespace Libmonitor.Shoot.Spec

/-- A thread the loop waits for: another thread whose application code has started. -/
def Waits (f : Flags) : Prop := f.self = false ∧ f.appl = true

/-- Everybody the loop waits for has finished, as far as this scan saw. -/
def AllDone (o : Obs) : Prop := ∀ f ∈ o.thr, Waits f → f.done = true

/-- Number of threads seen to have begun finishing. -/
def begun (o : Obs) : Nat := o.thr.countP fun f => !f.self && f.appl && f.started

/-- More threads have begun finishing than at any earlier scan. -/
def Progress (obs : Nat → Obs) (j : Nat) : Prop :=
  0 < begun (obs j) ∧ ∀ i < j, begun (obs i) < begun (obs j)

/-- Microseconds. -/
def micros (t : Time) : Int := t.sec * 1000000 + t.usec

/-- The list is frozen (pthread.c:172-176) and flags are never taken back. -/
structure Frozen (obs : Nat → Obs) (n : Nat) : Prop where
  len : ∀ k, (obs k).thr.length = n
  self : ∀ k (i : Nat), ((obs k).thr[i]?).map Flags.self = ((obs 0).thr[i]?).map Flags.self
  appl : ∀ (k m i : Nat) (f g : Flags), k ≤ m → (obs k).thr[i]? = some f → (obs m).thr[i]? = some g →
    f.appl = true → g.appl = true
  started : ∀ (k m i : Nat) (f g : Flags), k ≤ m → (obs k).thr[i]? = some f → (obs m).thr[i]? = some g →
    f.started = true → g.started = true
  done : ∀ (k m i : Nat) (f g : Flags), k ≤ m → (obs k).thr[i]? = some f → (obs m).thr[i]? = some g →
    f.done = true → g.done = true

/-- Thread `i` is seen for the first time to have begun finishing at scan `j`. -/
def Begins (obs : Nat → Obs) (i j : Nat) : Prop :=
  (∃ f, (obs j).thr[i]? = some f ∧ Waits f ∧ f.started = true) ∧
  ∀ k < j, ∀ f, (obs k).thr[i]? = some f → ¬ (Waits f ∧ f.started = true)

/-- Every thread that began finishing is done eventually. -/
def CallbacksTerminate (obs : Nat → Obs) : Prop :=
  ∀ (k i : Nat) (f : Flags), (obs k).thr[i]? = some f → Waits f → f.started = true →
    ∃ m, ∀ g : Flags, (obs m).thr[i]? = some g → g.done = true

/-- The clock goes on. -/
def ClockRuns (obs : Nat → Obs) : Prop := ∀ T : Int, ∃ N, ∀ k, N ≤ k → T < (obs k).now.sec

end Libmonitor.Shoot.Spec
