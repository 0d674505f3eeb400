import Verif.Proc.Spec
import Verif.Proc.SpecThread
/-!
# Vocabulary: monitor_init_thread_support and monitor_is_threaded
-/

namespace Libmonitor.Proc

/-- Between the test of monitor_thread_support_done and the return of the client's function
(pthread.c:1114-1118). -/
def Frame.sup : Frame → Bool
  | .pcSup0 .. | .pcSup1 .. | .pcSup .. => true
  | _ => false

/-- The entry of pthread_create, pthread_exit in progress. -/
def Frame.enters : Frame → Bool
  | .pc0 .. | .px0 | .px1 => true
  | _ => false

/-- Executions that are `Clean`, and in which, while a call of pthread_create is between the test of
the flag and the return of init-thread-support,
* the thread does not call pthread_create again (in the client's function or in a signal handler);
* the thread does not end;
* no other thread forks. -/
def CleanSup (s : S) (l : Lbl) : Prop :=
  Clean s l ∧
    match l with
    | .fork _ => ∀ f ∈ s.th (mainOf s.g.tr), f.sup = false
    | .step t .unwind => ∀ f ∈ s.th t, f.sup = false
    | .step t (.go _ _) => ∀ f ∈ (s.th t).head?,
        f.enters = true → ∀ h ∈ s.th t, h.sup = false
    | _ => True

instance (s : S) (l : Lbl) : Decidable (CleanSup s l) := by
  unfold CleanSup
  refine @instDecidableAnd _ _ _ ?_
  split <;> infer_instance

/-- Init-thread-support is called for the first time; a thread is announced to the client, by
pre-create or init-thread, only when init-thread-support has returned. -/
def announcedFirst (old : Hist) (_t : Tid) (e : Ev) : Prop :=
  (e = .support → ∀ u, (u, .support) ∉ old) ∧
  ((∃ c, e = .preCreate c) ∨ (∃ k d, e = .initThread k d) →
    ∃ u, (u, .support) ∈ old ∧ (u, .supportRet) ∈ old)

def Frame.isPc2 : Frame → Bool
  | .pc2 .. => true
  | _ => false

/-- Executions that are `Clean`, and in which a thread does not end (in a signal handler) between the
creation of the thread list and the rest of pthread_create. -/
def CleanAsk (s : S) (l : Lbl) : Prop :=
  Clean s l ∧
    match l with
    | .step t .unwind => ∀ f ∈ s.th t, f.isPc2 = false
    | .step t (.go _ _) => ∀ f ∈ (s.th t).head?, f.enters = true → ∀ h ∈ s.th t, h.isPc2 = false
    | _ => True

instance (s : S) (l : Lbl) : Decidable (CleanAsk s l) := by
  unfold CleanAsk
  refine @instDecidableAnd _ _ _ ?_
  split <;> infer_instance

/-- Some thread of this process is past the entry of pthread_create (and has made the thread list). -/
def creating (s : S) : Prop :=
  (∃ t c st ar, (t, .createCall c st ar) ∈ own s.g.tr) ∨ ∃ t f, f ∈ s.th t ∧ f.isPc2 = true

end Libmonitor.Proc
