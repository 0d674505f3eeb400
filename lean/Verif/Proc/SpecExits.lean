import Verif.Proc.SpecFair
import Verif.Proc.SpecKill
/-!
# Vocabulary of the statement that exit ends the process, after fini-process
-/

namespace Libmonitor.Proc

def CleanOrderly (s : S) (l : Lbl) : Prop := Clean s l ∧ Orderly s l

instance (s : S) (l : Lbl) : Decidable (CleanOrderly s l) := by
  unfold CleanOrderly; infer_instance

/-- A fair execution (see `FairRun`) that is also `Clean`. -/
structure CleanRun (σ : Nat → S) (act : Nat → Act) : Prop where
  fair : FairRun σ act
  start : ReachA CleanOrderly (σ 0)
  clean : ∀ i u ok v, act i = some (u, ok, v) → Clean (σ i) (.step u (.go ok v))

/-- Calls that do not return: exit, _exit, the end of main, a signal that ends the process; and
the real exit. -/
def Frame.exits : Frame → Bool
  | .xMain | .xErr | .xExit | .xUExit | .xUExit2 _ | .xSig false | .xSig2 false | .realExit
  | .realExit2 => true
  | _ => false

/-- Thread `u` has called a function that ends the process, and is not about to be ended itself
(in an atexit handler, or the like). -/
def exiting (s : S) (u : Tid) : Prop :=
  inStack s u Frame.exits ∧ ∀ f ∈ s.th u, f.isPx = false

/-- The ways to end a process other than through the exit functions of the library:
monitor_real_exit, the execution of a file that does not look executable, a failure of malloc, and
libc's own exit after the last thread has ended, or called inside err and the like. -/
def Frame.abrupt (old : Hist) (u : Tid) : Frame → Prop
  | .xUExit2 false | .xExec2 false | .mk1 .. => True
  | .realExit | .realExit2 => (u, .realExit false) ∈ old
  | _ => False

/-- The process comes to such an end. -/
def abruptEnd (σ : Nat → S) (act : Nat → Act) : Prop :=
  ∃ k w ok v, act k = some (w, ok, v) ∧ (σ k).g.dead = false ∧ (σ (k + 1)).g.dead = true ∧
    ∃ f ∈ ((σ k).th w).head?, f.abrupt (σ k).g.tr w

/-- Fini-process has been called in this process, and has returned. -/
def finiDelivered (old : Hist) : Prop := ∃ t how, (t, .finiProcessRet how) ∈ own old

/-- Exit processing did not begin before the process was made by fork. -/
def notInherited (old : Hist) : Prop :=
  ∀ t how, (t, .beginExit how) ∈ old → (t, .beginExit how) ∈ own old

end Libmonitor.Proc
