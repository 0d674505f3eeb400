import Verif.Proc.SpecLife
/-!
# Vocabulary of the statement that all threads are finished before fini-process
-/

namespace Libmonitor.Proc

def Ev.isFiniThreadRet : Ev → Bool
  | .finiThreadRet .. => true
  | _ => false

/-- What the start of fini-process in thread `t` says about the history before, if the process has
begun an exit cleanup: `t` did; and every thread that was registered (so is not an ignored one) and
had entered its start routine at that time, and the initial thread if it is not `t`, has returned from
fini-thread in this process, or the cleanup gave up waiting, or it is `t` itself, inside its own
fini-thread. -/
def finishedSpec (old : Hist) (t : Tid) (e : Ev) : Prop :=
  ∀ how d, e = .finiProcess how d → ∀ a w b, own old = a ++ (w, .shootdown) :: b →
    w = t ∧ ∀ u, ((∃ k, (u, .linked k) ∈ b) ∧ ∃ st ar, (u, .start st ar) ∈ b) ∨
        (u = mainOf old ∧ u ≠ t) →
      (∃ k, (u, .finiThreadRet k) ∈ own old) ∨ (t, .gaveUp) ∈ own old ∨
      (u = t ∧ ∃ k d src, (t, .finiThread k d src) ∈ own old)

end Libmonitor.Proc
