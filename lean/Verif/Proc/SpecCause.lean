import Verif.Proc.SpecThread
/-!
# Vocabulary of the statements about what ends a process

What the threads ask for is followed beside the state, from their calls alone.
-/

namespace Libmonitor.Proc

/-- What makes a process end: main returns, a thread calls pthread_exit (the initial one or another),
the last thread ends (the C library then calls exit), or a thread calls a function. -/
inductive Wish where
  | mainEnds | leaves (initial : Bool) | lastThread | call (a : Api)
  deriving DecidableEq, Repr

/-- The reason of exit that belongs to it; `none`: no exit callbacks.  For pthread_exit in threads
other than the initial one there is a reason only if `any` is true. -/
def Wish.reason (any : Bool) : Wish → Option How
  | .leaves initial => if initial || any then some .normal else none
  | .mainEnds | .call .exit | .call .uexit => some .normal
  | .call (.exec true) => some .exec
  | .call (.fatal _) => some .signal
  | _ => none

/-- The functions that end a process: exit after the exit callbacks, libc's exit without them, _exit
after them and without them, exec after them (`checked`) and without them, and the signal. -/
inductive End where
  | exit | libcExit | uExit | realUExit | exec (checked : Bool) | raise
  deriving DecidableEq, Repr

/-- The end that is asked for. -/
def Wish.end_ : Wish → Option End
  | .mainEnds | .call .exit => some .exit
  | .lastThread | .call .err => some .libcExit
  | .call .uexit => some .uExit
  | .call .realUExit => some .realUExit
  | .call (.exec checked) => some (.exec checked)
  | .call (.fatal _) => some .raise
  | _ => none

/-- The end that takes place. -/
def Ev.end_ : Ev → Option End
  | .realExit true => some .exit
  | .realExit false => some .libcExit
  | .realUExit true => some .uExit
  | .realUExit false => some .realUExit
  | .realExec checked => some (.exec checked)
  | .realRaise => some .raise
  | _ => none

/-- What a step asks for. -/
def askedBy (s : S) : Lbl → List (Tid × Wish)
  | .step t (.call a) => [(t, .call a)]
  | .step t (.go ok _) =>
    if (s.th t).head? = some .mainApp then [(t, .mainEnds)]
    else if (s.th t).head? = some .px0 then [(t, .leaves (decide (t = mainOf s.g.tr)))]
    else if (s.th t).head? = some .tdtor ∧ ok = false then [(t, .lastThread)]
    else []
  | _ => []

/-- Reachable states, with all that was asked for (in a child: also before the fork). -/
inductive ReachWish (A : S → Lbl → Prop) : S → List (Tid × Wish) → Prop
  | init : ReachWish A {} []
  | next {s s' : S} {ws : List (Tid × Wish)} {l : Lbl} : ReachWish A s ws → A s l → next s l = some s' →
      ReachWish A s' (askedBy s l ++ ws)

/-- How often `t` asked for an exit with reason `how`; for the end `e`. -/
def reasonAsked (any : Bool) (ws : List (Tid × Wish)) (t : Tid) (how : How) : Nat :=
  ws.countP (fun x => decide (x.1 = t ∧ x.2.reason any = some how))

def endAsked (ws : List (Tid × Wish)) (t : Tid) (e : End) : Nat :=
  ws.countP (fun x => decide (x.1 = t ∧ x.2.end_ = some e))

/-- How often monitor_begin_process_exit and monitor_fini_process were called in `t` with reason
`how`, and how often an end `e` of the process took place in `t`. -/
def beginTold (tr : Hist) (t : Tid) (how : How) : Nat :=
  tr.countP (fun x => decide (x = (t, .beginExit how)))

def finiTold (tr : Hist) (t : Tid) (how : How) : Nat :=
  tr.countP (fun x => match x with
    | (u, .finiProcess h _) => decide (u = t ∧ h = how)
    | _ => false)

def endDone (tr : Hist) (t : Tid) (e : End) : Nat :=
  tr.countP (fun x => decide (x.1 = t ∧ x.2.end_ = some e))

/-- Running a schedule. -/
def runWish (A : S → Lbl → Prop) [∀ s l, Decidable (A s l)] : S → List (Tid × Wish) → List Lbl →
    Option (S × List (Tid × Wish))
  | s, ws, [] => some (s, ws)
  | s, ws, l :: ls =>
    if A s l then (next s l).bind (fun s' => runWish A s' (askedBy s l ++ ws) ls) else none

end Libmonitor.Proc
