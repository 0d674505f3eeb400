import Verif.Proc.SpecKill
/-!
# Vocabulary of the statement that threads that have ended were finished
-/

namespace Libmonitor.Proc

def Frame.clRec : Frame → Option NodeId
  | .cl0 n => some n
  | _ => none

/-- A thread that is ending (it is in its cleanup routine or in its destructors) is not ended again
by pthread_exit or cancellation, and no thread ends while it has monitor_block_shootdown in effect. -/
def EndsWell (s : S) : Lbl → Prop
  | .step t .unwind => .tdtor ∉ s.th t
  | .step t (.go ..) => ∀ f ∈ (s.th t).head?, (f.isPx = true → .tdtor ∉ s.th t) ∧
      ∀ n ∈ f.clRec, (s.g.nodes n).block = false
  | _ => True

def CleanEnd (s : S) (l : Lbl) : Prop := Clean s l ∧ EndsWell s l

instance (s : S) (l : Lbl) : Decidable (EndsWell s l) := by
  unfold EndsWell; split <;> infer_instance

instance (s : S) (l : Lbl) : Decidable (CleanEnd s l) := by
  unfold CleanEnd; infer_instance

/-- Thread `u` was registered in this process, and it has entered its start routine. -/
def ranIn (old : Hist) (u : Tid) (k : Int) : Prop :=
  (u, .linked k) ∈ own old ∧ ∃ st ar, (u, .start st ar) ∈ own old

/-- Fini-thread was called in thread `u` by its cleanup routine, with its number and with the value
that init-thread returned, and has returned. -/
def finishedIn (old : Hist) (u : Tid) (k : Int) : Prop :=
  ∃ d, (u, .initThreadRet k d) ∈ own old ∧ (u, .finiThread k d .cleanup) ∈ own old ∧
    (u, .finiThreadRet k) ∈ own old

end Libmonitor.Proc
