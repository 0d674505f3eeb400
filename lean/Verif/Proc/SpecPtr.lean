import Verif.Proc.SpecThread
/-!
# Walks over the list of threads
-/

namespace Libmonitor.Proc

/-- The loops of the exit cleanup (pthread.c:580-600) and of monitor_broadcast_signal
(pthread.c:777-785): the loop variable's element, if any, and the elements after it.  The calls of
the exit cleanup that come before the loop count as walks that have not begun. -/
def Frame.walk : Frame → Option (List NodeId)
  | .sd1 | .sd2 | .sd3 => some []
  | .sdScan _ l _ _ | .br1 _ l => some l
  | .sdKill _ n l _ _ | .sdScan2 _ n l _ _ | .brKill _ n l => some (n :: l)
  | _ => none

/-- Executions in `Clean` in which fork is not called (by a signal handler) during a walk. -/
def CleanWalk (s : S) (l : Lbl) : Prop :=
  Clean s l ∧ match l with
    | .fork t => ∀ f ∈ s.th t, f.walk = none
    | _ => True

instance (s : S) (l : Lbl) : Decidable (CleanWalk s l) := by
  unfold CleanWalk
  split <;> infer_instance

end Libmonitor.Proc
