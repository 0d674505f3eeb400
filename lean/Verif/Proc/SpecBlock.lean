import Verif.Proc.SpecThread
/-!
# Vocabulary of the statements about monitor_block_shootdown

What a thread has asked for is followed beside the state, from its calls alone: the record that
the library keeps (tn_block_shootdown) does not occur here.
-/

namespace Libmonitor.Proc

/-- What a thread last asked for, after a step: monitor_block_shootdown (`true`) or
monitor_unblock_shootdown (`false`), pthread.c:802-830. -/
def kept (s : S) (l : Lbl) (B : Tid → Bool) : Tid → Bool :=
  match l with
  | .step t (.go _ _) =>
    match s.th t with
    | .qBlock b :: _ => fun u => if u = t then b else B u
    | _ => B
  | _ => B

/-- Reachable states, with what each thread last asked for (at the beginning: not blocked). -/
inductive ReachK (A : S → (Tid → Bool) → Lbl → Prop) : S → (Tid → Bool) → Prop
  | init : ReachK A {} (fun _ => false)
  | next {s s' : S} {B : Tid → Bool} {l : Lbl} : ReachK A s B → A s B l → next s l = some s' →
      ReachK A s' (kept s l B)

/-- Running a schedule, with what each thread last asked for. -/
def runK (A : S → (Tid → Bool) → Lbl → Prop) [∀ s B l, Decidable (A s B l)] :
    S → (Tid → Bool) → List Lbl → Option (S × (Tid → Bool))
  | s, B, [] => some (s, B)
  | s, B, l :: ls =>
    if A s B l then (next s l).bind (fun s' => runK A s' (kept s l B) ls) else none

/-- A call that returns into the place between the test and the call of fini-thread (in the
shootdown handler, the cleanup routine or the sigwait functions). -/
def intoFini : List Frame → Bool
  | _ :: .fin0 _ src :: _ => decide (src ≠ .winner)
  | _ => false

/-- Executions that are `Clean`, and in which
* a created thread does not fork while it has shootdown blocked;
* monitor_block_shootdown is called in threads that libmonitor knows;
* a signal handler that comes between the test and the call of fini-thread leaves shootdown
  unblocked. -/
def Blocking (s : S) (B : Tid → Bool) (l : Lbl) : Prop :=
  Clean s l ∧
    match l with
    | .fork t => t = mainOf s.g.tr ∨ B t = false
    | .step t (.go _ _) =>
      (.qBlock true ∈ (s.th t).head? → getTn s.g t ≠ none) ∧
      (intoFini (s.th t) = true → kept s l B t = false)
    | _ => True

instance (s : S) (B : Tid → Bool) (l : Lbl) : Decidable (Blocking s B l) := by
  unfold Blocking
  refine @instDecidableAnd _ _ _ ?_
  split <;> infer_instance

/-- Every execution. -/
def AnyK (_ : S) (_ : Tid → Bool) (_ : Lbl) : Prop := True

instance (s : S) (B : Tid → Bool) (l : Lbl) : Decidable (AnyK s B l) := .isTrue trivial

/-- Executions that are `Clean`. -/
def CleanK (s : S) (_ : Tid → Bool) (l : Lbl) : Prop := Clean s l

instance (s : S) (B : Tid → Bool) (l : Lbl) : Decidable (CleanK s B l) := by
  unfold CleanK; infer_instance

/-- What monitor_block_shootdown returns, pthread.c:807-814. -/
def blockAnswer (g : G) (t : Tid) : Bool :=
  match getTn g t with
  | none => false
  | some _ => g.inExit

end Libmonitor.Proc
