import Verif.SysC.Model

/-!
# What is claimed about system() in several threads (C46, C77, C78)

Histories are latest first.
-/

namespace Libmonitor.SysC

abbrev Hist := List (Tid × Ev)

/-- The action that the application has set last. -/
def lastSet (a0 : Sg → Act) (sg : Sg) : Hist → Act
  | [] => a0 sg
  | (_, .appSet s a) :: r => if s = sg then a else lastSet a0 sg r
  | _ :: r => lastSet a0 sg r

/-- The application has set this action at some time. -/
def WasSet (a0 : Sg → Act) (sg : Sg) (tr : Hist) (a : Act) : Prop :=
  a = a0 sg ∨ ∃ t, (t, Ev.appSet sg a) ∈ tr

/-- The calls that have replaced the action of `sg` and have not restored it yet, latest first, with the
action that they have found. -/
def opened (sg : Sg) : Hist → List (Nat × Act)
  | [] => []
  | (_, .save s c a) :: r => if s = sg then (c, a) :: opened sg r else opened sg r
  | (_, .restore s c _) :: r => if s = sg then (opened sg r).eraseP (·.1 == c) else opened sg r
  | _ :: r => opened sg r

/-- Which call restores which action if thread `t` goes on, and system() is about to return. -/
def restoring (s : S) (t : Tid) : Option (Sg × Nat) :=
  match s.th t with
  | .sys .rs1 k :: _ => some (.int, k.c)
  | .sys .rs2 k :: _ => some (.quit, k.c)
  | _ => none

/-- The calls are properly nested, whichever threads make them: the call that restores an action is the
one that has replaced it last; and the application sets no action that is replaced at the time. -/
def Nested (s : S) (l : Lbl) : Prop :=
  (∀ t v, l = .go t v → ∀ sg c, restoring s t = some (sg, c) → ∃ a r, opened sg s.g.tr = (c, a) :: r) ∧
  ∀ t sg a, l = .appSet t sg a → opened sg s.g.tr = []

/-- The process was not made by system(). -/
def notChild (tr : Hist) : Prop := ∀ t c, (t, Ev.born c) ∉ tr

/-- The number of the call that an event belongs to. -/
def Ev.call : Ev → Option Nat
  | .enter c _ | .preFork c | .preForkRet c _ | .save _ c _ | .blocked c _ | .forked c _ | .waitEnd c _
  | .restore _ c _ | .unblocked c _ | .postFork c _ _ | .ret c _ | .born c | .exec c _ _ _ _
  | .exit127 c => some c
  | .appSet _ _ | .appFork => none

/-- What call `c` does, earliest first. -/
def ofCall (c : Nat) (tr : Hist) : Hist := (tr.filter fun x => x.2.call == some c).reverse

/-- `x`, if callbacks are wanted. -/
def ifCb (cb : Bool) (x : List Ev) : List Ev := if cb then x else []

/-- How a call begins: pre-fork, then the two signals are ignored and SIGCHLD is blocked. -/
def opening (c : Nat) (cb : Bool) (d : Int) (oi oq : Act) (om : Mask) : List Ev :=
  .enter c cb :: ifCb cb [.preFork c, .preForkRet c d] ++
    [.save .int c oi, .save .quit c oq, .blocked c om]

/-- ... and how it restores everything. -/
def closing (c : Nat) (oi oq : Act) (om : Mask) : List Ev :=
  [.restore .int c oi, .restore .quit c oq, .unblocked c om]

/-- What a whole call does: in the parent, if fork succeeds; if it fails; and in the child. -/
inductive Script (c : Nat) : List Ev → Prop where
  | parent (cb : Bool) (d : Int) (oi oq : Act) (om : Mask) (pid st : Int) : 0 < pid →
      Script c (opening c cb d oi oq om ++ [.forked c pid, .waitEnd c st] ++ closing c oi oq om ++
        ifCb cb [.postFork c pid d] ++ [.ret c st])
  | failed (cb : Bool) (d : Int) (oi oq : Act) (om : Mask) (pid : Int) : pid < 0 →
      Script c (opening c cb d oi oq om ++ [.forked c pid] ++ closing c oi oq om ++
        ifCb cb [.postFork c pid d] ++ [.ret c (-1)])
  | child (cb : Bool) (d : Int) (oi oq : Act) (om : Mask) (ai aq : Act) (am : Mask) :
      Script c (opening c cb d oi oq om ++ [.born c] ++ closing c oi oq om ++
        [.exec c cb ai aq am, .exit127 c])

/-- Frames of a child made by system(). -/
def Frame.inChild : Frame → Bool
  | .sys .ch1 _ | .sys .ch2 _ | .sys .ch3 _ | .sys .exc _ | .sys .ex127 _ => true
  | _ => false

/-- Handlers that run in a child made by system() set no action, and they return. -/
def Still (s : S) (l : Lbl) : Prop :=
  match l with
  | .appSet t _ _ => ∀ f ∈ s.th t, f.inChild = false
  | .unwind t _ _ => ∀ f ∈ s.th t, f.inChild = false
  | _ => True

end Libmonitor.SysC
