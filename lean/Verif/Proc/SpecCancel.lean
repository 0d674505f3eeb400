import Verif.Proc.Cancel
import Verif.Proc.SpecWait
/-!
# Vocabulary of the statements about cancellation
-/

namespace Libmonitor.Proc

/-- Calls that must not be cut off: fini-thread on behalf of the exit cleanup (in the shootdown
handler, in the sigwait functions, in the exiting thread itself), and the exit cleanup of the
threads as a whole (pthread.c:527-632). -/
def Frame.guarded : Frame → Bool
  | .fin0 _ src | .finCb _ src _ => decide (src ≠ .cleanup)
  | .sd1 | .sd2 | .sd3 | .sdScan .. | .sdKill .. | .sdScan2 .. | .sdDone _ | .sdMy _ => true
  | _ => false

/-- Foreign code does not call pthread_setcancelstate inside guarded calls (in a fini-thread
callback, or in a signal handler that interrupts a guarded call). -/
def Settled (x : SC) : LblC → Prop
  | .set t _ => ∀ f ∈ x.s.th t, f.guarded = false
  | _ => True

instance (x : SC) (l : LblC) : Decidable (Settled x l) := by
  unfold Settled; split <;> infer_instance

/-- ..., and pthread_exit is not called there, either. -/
def Steady (x : SC) (l : LblC) : Prop :=
  Settled x l ∧
    match l with
    | .lib (.step t .unwind) => ∀ f ∈ x.s.th t, f.guarded = false
    | .lib (.step t (.go _ _)) =>
      ∀ f ∈ (x.s.th t).head?, f = .px0 ∨ f = .px1 → ∀ f ∈ x.s.th t, f.guarded = false
    | _ => True

instance (x : SC) (l : LblC) : Decidable (Steady x l) := by
  unfold Steady
  refine @instDecidableAnd _ _ _ ?_
  split <;> infer_instance

/-- The state that the thread's own code has last asked for, after a step. -/
def askedC (l : LblC) (a : Tid → Bool) : Tid → Bool :=
  match l with
  | .set t b => fun u => if u = t then b else a u
  | _ => a

/-- Reachable states, with the states last asked for (at the beginning: enabled). -/
inductive ReachQ (A : SC → LblC → Prop) : SC → (Tid → Bool) → Prop
  | init : ReachQ A {} (fun _ => false)
  | next {x x' : SC} {a : Tid → Bool} {l : LblC} : ReachQ A x a → A x l → nextC x l = some x' →
      ReachQ A x' (askedC l a)

/-- Running a schedule all of whose labels are allowed. -/
def runQ (A : SC → LblC → Prop) [∀ x l, Decidable (A x l)] :
    SC → (Tid → Bool) → List LblC → Option (SC × (Tid → Bool))
  | x, a, [] => some (x, a)
  | x, a, l :: ls =>
    if A x l then (nextC x l).bind (fun x' => runQ A x' (askedC l a) ls) else none

/-- Steps of a single thread, with the given outcomes of external calls. -/
def runG (s : S) (t : Tid) : List (Bool × Nat) → Option S
  | [] => some s
  | (ok, v) :: w => (next s (.step t (.go ok v))).bind (fun s' => runG s' t w)

end Libmonitor.Proc
