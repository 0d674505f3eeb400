import Verif.Proc.Pt
import Verif.Proc.SpecEnded
import Verif.Proc.SpecBroad
/-!
# Vocabulary of the statements about pthread_t values
-/

namespace Libmonitor.Proc

/-- Threads that exist at the same time have different pthread_t, and that of the initial thread is
not given to others (in a child: that of the thread that called fork).  (Threads have numbers below
`nextTid`.) -/
def OnePt (pt : Tid → Nat) (s : S) : Prop :=
  (∀ t ∈ List.range s.g.nextTid, ∀ u ∈ List.range s.g.nextTid, s.th t ≠ [] → s.th u ≠ [] →
    pt t = pt u → t = u) ∧
  ∀ t ∈ List.range s.g.nextTid, s.th t ≠ [] → pt t = pt (mainOf s.g.tr) →
    t = mainOf s.g.tr

/-- A thread that is ending (it is in its cleanup routine or in its destructors) is not ended
again. -/
def EndsOnce (s : S) : Lbl → Prop
  | .step t .unwind => .tdtor ∉ s.th t
  | .step t (.go ..) => ∀ f ∈ (s.th t).head?, f.isPx = true → .tdtor ∉ s.th t
  | _ => True

/-- A thread that ends has entered its start routine. -/
def EndsRan (s : S) : Lbl → Prop
  | .step t (.go ..) => ∀ f ∈ (s.th t).head?, ∀ n ∈ f.clRec, (s.g.nodes n).appl = true
  | _ => True

/-- A thread that ends does not have monitor_block_shootdown in effect. -/
def EndsFree (s : S) : Lbl → Prop
  | .step t (.go ..) => ∀ f ∈ (s.th t).head?, ∀ n ∈ f.clRec, (s.g.nodes n).block = false
  | _ => True

/-- monitor_broadcast_signal at work on the list. -/
def Frame.isBr1 : Frame → Bool
  | .br1 .. => true
  | _ => false

/-- The exit cleanup at its comparisons. -/
def Frame.isSd3 : Frame → Bool
  | .sd3 | .sdScan .. => true
  | _ => false

def Ev.isBegin : Ev → Bool
  | .beginExit _ => true
  | _ => false

/-- monitor_broadcast_signal is at work before the exit cleanup and in the process in which it was
called, and the exit cleanup in the process in which the exit began. -/
def OwnCalls (s : S) : Lbl → Prop
  | .step t (.go ..) => ∀ f ∈ (s.th t).head?,
      (f.isBr1 = true → callOf t 0 (own s.g.tr) ≠ none ∧ ∀ e ∈ own s.g.tr, e.2 ≠ .shootdown) ∧
      (f.isSd3 = true → (t, .shootdown) ∈ own s.g.tr ∧
        ∃ e ∈ own s.g.tr, e.1 = t ∧ e.2.isBegin = true)
  | _ => True

/-- The executions that the statement is about. -/
def CleanP (pt : Tid → Nat) (s : S) (l : Lbl) : Prop :=
  Clean s l ∧ EndsOnce s l ∧ EndsRan s l ∧ EndsFree s l ∧ OwnCalls s l ∧ OnePt pt s

instance (s : S) (l : Lbl) : Decidable (EndsOnce s l) := by unfold EndsOnce; split <;> infer_instance
instance (s : S) (l : Lbl) : Decidable (EndsRan s l) := by unfold EndsRan; split <;> infer_instance
instance (s : S) (l : Lbl) : Decidable (EndsFree s l) := by unfold EndsFree; split <;> infer_instance
instance (s : S) (l : Lbl) : Decidable (OwnCalls s l) := by unfold OwnCalls; split <;> infer_instance
instance (pt : Tid → Nat) (s : S) : Decidable (OnePt pt s) := by unfold OnePt; infer_instance
instance (pt : Tid → Nat) (s : S) (l : Lbl) : Decidable (CleanP pt s l) := by
  unfold CleanP; infer_instance

/-- Running a schedule. -/
def runP (pt : Tid → Nat) (A : S → Lbl → Prop) [∀ s l, Decidable (A s l)] : S → List Lbl → Option S
  | s, [] => some s
  | s, l :: ls => if A s l then (nextP pt s l).bind (fun s' => runP pt A s' ls) else none

/-- The record that the innermost call of thread `t` is about to compare with its own pthread_t. -/
def comparedTo : List Frame → Option NodeId
  | .sd3 :: _ => some .main
  | .sdScan _ (n :: _) _ _ :: _ => some n
  | .br1 _ (n :: _) :: _ => some n
  | .br1 _ [] :: _ => some .main
  | _ => none

end Libmonitor.Proc
