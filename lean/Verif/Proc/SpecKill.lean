import Verif.Proc.SpecThread
import Verif.Proc.SpecBroad
/-!
# Vocabulary of the statement that only live threads are signalled
-/

namespace Libmonitor.Proc

/-- The innermost call is about to end the thread. -/
def Frame.isPx : Frame → Bool
  | .px0 | .px1 => true
  | _ => false

/-- Nobody calls monitor_block_shootdown, and a thread that is ending (it is in its
cleanup routine or in its destructors) is not ended again by pthread_exit or cancellation. -/
def Tame (s : S) : Lbl → Prop
  | .step _ (.call (.block true)) => False
  | .step t .unwind => .tdtor ∉ s.th t
  | .step t (.go ..) => ∀ f ∈ (s.th t).head?, f.isPx = true → .tdtor ∉ s.th t
  | _ => True

def CleanTame (s : S) (l : Lbl) : Prop := Clean s l ∧ Tame s l

instance (s : S) (l : Lbl) : Decidable (Tame s l) := by
  unfold Tame; split <;> infer_instance

instance (s : S) (l : Lbl) : Decidable (CleanTame s l) := by
  unfold CleanTame; infer_instance

end Libmonitor.Proc
