import Verif.Proc.SpecThread
/-!
# The bottom of the stack

`tn_stack_bottom` (pthread_h.h:64) is written beside the fields of `Node`, and nothing in the library
depends on it.  It is added here to the states of the process: the thread in whose bottom frame
the address lies, `none` for NULL.
-/

namespace Libmonitor.Proc

/-- A process state with the field tn_stack_bottom of each record. -/
structure B where
  s : S := {}
  bot : NodeId → Option Tid := fun _ => none

def setBot (b : NodeId → Option Tid) (n : NodeId) (v : Option Tid) : NodeId → Option Tid :=
  fun m => if m = n then v else b m

/-- monitor_reset_thread_list, pthread.c:335-346. -/
def resetBot (g : G) (t : Tid) (b : NodeId → Option Tid) : NodeId → Option Tid :=
  if g.hasUsed then
    match getTn g t with
    | none => b
    | some n => if n = .main then b else setBot b .main (b n)
  else b

/-- What a step of the frame does to the field. -/
def botStep (g : G) (t : Tid) (ok : Bool) (b : NodeId → Option Tid) : Frame → NodeId → Option Tid
  -- main.c:515-516
  | .start => setBot b .main (some t)
  -- pthread.c:970-971
  | .bt0 n => setBot b n (some t)
  -- pthread.c:394 (memset)
  | .mk1 .. =>
    match alloc g ok with
    | none => b
    | some a => setBot b a.n none
  -- pthread.c:430-435 (memset)
  | .ul1 n => if g.inExit then b else if n ∈ g.list then setBot b n none else b
  | .bpReset _ | .rfReset => resetBot g t b
  | _ => b

def nextB (x : B) (l : Lbl) : Option B :=
  (next x.s l).map (fun s' => ⟨s',
    match l with
    | .step t (.go ok _) =>
      match x.s.th t with
      | f :: _ => botStep x.s.g t ok x.bot f
      | [] => x.bot
    | _ => x.bot⟩)

/-- Reachable states, for executions whose labels satisfy `A`. -/
inductive ReachB (A : S → Lbl → Prop) : B → Prop
  | init : ReachB A {}
  | next {x x' : B} {l : Lbl} : ReachB A x → A x.s l → nextB x l = some x' → ReachB A x'

/-- monitor_stack_bottom, pthread.c:707-718. -/
def stackBottom (x : B) (t : Tid) : Option Tid := (getTn x.s.g t).bind x.bot

/-- monitor_get_addr_thread_start, pthread.c:683-690 (0 for NULL). -/
def threadStart (g : G) (t : Tid) : Nat :=
  match getTn g t with
  | none => 0
  | some n => (g.nodes n).start

/-- Executions in which fork is called by threads that the library knows only, not by those it was
told to ignore. -/
def Known (s : S) : Lbl → Prop
  | .fork t => getTn s.g t ≠ none
  | _ => True

def CleanKnown (s : S) (l : Lbl) : Prop := Clean s l ∧ Known s l

instance (s : S) (l : Lbl) : Decidable (Known s l) := by
  unfold Known; split <;> infer_instance

instance (s : S) (l : Lbl) : Decidable (CleanKnown s l) := by
  unfold CleanKnown; infer_instance

end Libmonitor.Proc
