import Verif.Proc.SpecEnded
/-!
# Thread records are used again: vocabulary of C86
-/

namespace Libmonitor.Proc

/-- The call of pthread_create that is given a record when this frame goes on (the end of
monitor_make_thread_node, pthread.c:371-399). -/
def Frame.takes (g : G) (ok : Bool) : Frame → Option Nat
  | .mk1 c .. => if (alloc g ok).isSome then some c else none
  | _ => none

/-- The thread that gives its record back when this frame goes on (monitor_unlink_thread_node,
pthread.c:434-437). -/
def Frame.gives (g : G) (t : Tid) : Frame → Option Tid
  | .ul1 n => if g.inExit = false ∧ n ∈ g.list then some t else none
  | _ => none

def takes (s : S) : Lbl → Option Nat
  | .step t (.go ok _) => (s.th t).head?.bind (Frame.takes s.g ok)
  | _ => none

def gives (s : S) : Lbl → Option Tid
  | .step t (.go ..) => (s.th t).head?.bind (Frame.gives s.g t)
  | _ => none

/-- Executions, with the calls that were given a record and the threads that gave theirs back so far.
The labels satisfy `A`, and all states on the way satisfy `B`. -/
inductive Exec (A : S → Lbl → Prop) (B : S → List Nat → List Tid → Prop) :
    S → List Nat → List Tid → Prop
  | init : B {} [] [] → Exec A B {} [] []
  | next {s s' : S} {l : Lbl} {M : List Nat} {R : List Tid} : Exec A B s M R → A s l →
      next s l = some s' → B s' ((takes s l).toList ++ M) ((gives s l).toList ++ R) →
      Exec A B s' ((takes s l).toList ++ M) ((gives s l).toList ++ R)

/-- This process is followed, not a child of it. -/
def Stay (_ : S) : Lbl → Prop
  | .fork _ => False
  | _ => True

def Any (_ : S) (_ : List Nat) (_ : List Tid) : Prop := True

/-- How many records the arrays were cut into so far: all of the full ones, and the used part of the
last. -/
def records (g : G) : Nat := g.nArr * arraySize + g.pos

/-- At most `k` records are out: given to a call, and not given back. -/
def OutB (k : Nat) (_ : S) (M : List Nat) (R : List Tid) : Prop := M.length ≤ R.length + k

/-- The thread that call `c` made was registered and has entered its start routine, and it is gone. -/
def past (s : S) (c : Nat) : Bool :=
  s.g.tr.any fun x => match x.2 with
    | .spawn c' t .. => c' == c && (s.th t).isEmpty &&
      (s.g.tr.any fun y => y.1 == t && y.2.isLinked) && (s.g.tr.any fun y => y.1 == t && y.2.isStart)
    | _ => false

/-- All but `k` of the calls that were given a record have made threads that ran and are gone; the exit
cleanup has not begun. -/
def PastB (k : Nat) (s : S) (M : List Nat) (_ : List Tid) : Prop :=
  (M.filter fun c => !past s c).length ≤ k ∧ ∀ e ∈ s.g.tr, e.2 ≠ .shootdown

/-- Threads end well (C71), and this process is followed. -/
def CleanStay (s : S) (l : Lbl) : Prop := CleanEnd s l ∧ Stay s l

instance (s : S) (l : Lbl) : Decidable (Stay s l) := by
  unfold Stay; split <;> infer_instance
instance (s : S) (l : Lbl) : Decidable (CleanStay s l) := by
  unfold CleanStay; infer_instance
instance (s : S) (M : List Nat) (R : List Tid) : Decidable (Any s M R) := .isTrue trivial
instance (k : Nat) (s : S) (M : List Nat) (R : List Tid) : Decidable (OutB k s M R) := by
  unfold OutB; infer_instance
instance (k : Nat) (s : S) (M : List Nat) (R : List Tid) : Decidable (PastB k s M R) := by
  unfold PastB; infer_instance

end Libmonitor.Proc
