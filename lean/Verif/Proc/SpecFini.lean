import Verif.Proc.SpecLife
/-!
# Vocabulary of the statement that fini-thread is started once
-/

namespace Libmonitor.Proc

/-- The thread has tested that fini-thread is to be called and has not yet noted that it is started:
between pthread.c:466 and 469, 624 and 625, 926 and 928, 1255 and 1260. -/
def Frame.isFin0 : Frame → Bool
  | .fin0 .. => true
  | _ => false

/-- No signal is handled between the test and the note. -/
def Calm (s : S) : Lbl → Prop
  | .step t .deliver | .step t .interrupt => ∀ f ∈ (s.th t).head?, f.isFin0 = false
  | _ => True

def CleanCalm (s : S) (l : Lbl) : Prop := Clean s l ∧ Calm s l

instance (s : S) (l : Lbl) : Decidable (Calm s l) := by
  unfold Calm; split <;> infer_instance

instance (s : S) (l : Lbl) : Decidable (CleanCalm s l) := by
  unfold CleanCalm; infer_instance

end Libmonitor.Proc
