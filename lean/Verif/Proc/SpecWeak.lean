import Verif.Proc.Weak
import Verif.Proc.Spec
/-!
# Vocabulary: programs linked without the thread module
-/

namespace Libmonitor.Proc

/-- The program makes no threads. -/
def NoSpawn : LblW → Prop
  | .lib _ => True
  | .spawn => False

instance (l : LblW) : Decidable (NoSpawn l) := by unfold NoSpawn; split <;> infer_instance

/-- No restriction. -/
def AnyW : LblW → Prop := fun _ => True

/-- Executions of the full library in a program that makes no threads and does not use the
functions of its thread module. -/
def NoThreads (_ : S) : Lbl → Prop
  | .step _ (.call (.create ..)) | .step _ (.call .pthreadExit) | .step _ (.call (.broadcast _))
  | .step _ (.call .sigwait) | .step _ (.call .info) | .step _ (.call (.block _))
  | .step _ (.call (.ignore _)) => False
  | _ => True

instance (s : S) (l : Lbl) : Decidable (NoThreads s l) := by
  unfold NoThreads; split <;> infer_instance

end Libmonitor.Proc
