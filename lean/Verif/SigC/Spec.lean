import Verif.SigC.Model

/-! # Vocabulary of the claim on signal actions (C59) -/

namespace Libmonitor.SigC

abbrev Hist := List (Tid × Ev)

/-- The action the application set last. -/
def current (a : Act) : Hist → Act
  | [] => a
  | (_, .call _ (some b) _) :: _ => b
  | _ :: old => current a old

/-- Flags and mask that application or client set last. -/
def lastKern (k : Kern) : Hist → Kern
  | [] => k
  | (_, .call _ (some b) _) :: _ => b.kern
  | (_, .clientCall _ (some b)) :: _ => b.kern
  | _ :: old => lastKern k old

/-- The handler the client registered last. -/
def lastClient : Hist → Nat
  | [] => 0
  | (_, .clientCall h _) :: _ => h
  | _ :: old => lastClient old

/-- The history up to call number `c`. -/
def before (c : Nat) : Hist → Hist
  | [] => []
  | (_, .call d _ _) :: old => if d = c then old else before c old
  | _ :: old => before c old

/-- Call number `c` is in progress. -/
def openCall (c : Nat) (tr : Hist) : Prop :=
  (∃ t act o, (t, Ev.call c act o) ∈ tr) ∧ ∀ t r, (t, Ev.ret c r) ∉ tr

/-- Every event of a history satisfies `P`, given the history before it. -/
def Always (P : Tid → Ev → Hist → Prop) : Hist → Prop
  | [] => True
  | x :: old => P x.1 x.2 old ∧ Always P old

/-- The action returned by call `c` is the one set before it, and is there if it was asked for. -/
def Returned (a : Act) (c : Nat) (r : Option Act) (old : Hist) : Prop :=
  (∀ x, r = some x → x = current a (before c old)) ∧
    ((∃ t act, (t, Ev.call c act true) ∈ old) → r ≠ none)

/-- The latest event of thread `t`. -/
def lastOwn (t : Tid) : Hist → Option Ev
  | [] => none
  | (u, e) :: old => if u = t then some e else lastOwn t old

/-- A signal has arrived at thread `t`, and it is for the application: the client has no handler,
or its handler has passed the signal on. -/
def Passed (t : Tid) (tr : Hist) : Prop :=
  lastOwn t tr = some .deliver ∧ lastClient tr = 0 ∨ lastOwn t tr = some (.clientDid false)

/-- A signal has arrived at thread `t` and nothing has been done about it, or only the client's
handler called, which has passed it on. -/
def Pending (t : Tid) (tr : Hist) : Prop :=
  lastOwn t tr = some .deliver ∨ lastOwn t tr = some (.clientDid false)

/-- What an event has to look like if the signal actions work as if sigaction was one step:
the action applied is the one set last, complete, a handler is only called if it is one; the
action returned is the one that was set before the call; the client's handler is the one it
registered last, and it is called first, for each signal that arrives; the application's action
is applied once for each signal that arrives and that the client has not dealt with. -/
def Right (a : Act) : Tid → Ev → Hist → Prop
  | t, .run h info, old =>
    Passed t old ∧ (current a old).h = h ∧ (current a old).flags.info = info ∧ 1 < h
  | t, .ignored, old => Passed t old ∧ (current a old).h = 1
  | t, .dflt, old => Passed t old ∧ (current a old).h = 0
  | _, .ret c r, old => Returned a c r old
  | t, .clientRun h, old => lastOwn t old = some .deliver ∧ h = lastClient old ∧ h ≠ 0
  | _, _, _ => True

/-- The same for the part that holds when signals arrive during calls. -/
def Either (a : Act) : Tid → Ev → Hist → Prop
  | _, .run h _, old =>
    h = (current a old).h ∨ ∃ c, openCall c old ∧ h = (current a (before c old)).h
  | _, .ignored, old =>
    1 = (current a old).h ∨ ∃ c, openCall c old ∧ 1 = (current a (before c old)).h
  | _, .dflt, old =>
    0 = (current a old).h ∨ ∃ c, openCall c old ∧ 0 = (current a (before c old)).h
  | _, .ret c r, old => Returned a c r old
  | _, _, _ => True

/-- The application has set an action with this property, or it was there at the start. -/
def someAct (a : Act) (tr : Hist) (p : Act → Prop) : Prop :=
  p a ∨ ∃ t c b o, (t, Ev.call c (some b) o) ∈ tr ∧ p b

/-- What holds of an event in all executions: each single word comes from some action. -/
def Known (a : Act) : Tid → Ev → Hist → Prop
  | _, .run h info, old =>
    someAct a old (fun b => b.h = h) ∧ someAct a old (fun b => b.flags.info = info)
  | _, .ignored, old => someAct a old (fun b => b.h = 1)
  | _, .dflt, old => someAct a old (fun b => b.h = 0)
  | _, .ret _ (some r), old => someAct a old (fun b => b.h = r.h) ∧
      someAct a old (fun b => b.flags = r.flags) ∧ someAct a old (fun b => b.mask = r.mask)
  | _, .clientRun h, old => h = 0 ∨ ∃ t act, (t, Ev.clientCall h act) ∈ old
  | _, _, _ => True

/-- The thread is not in a function of the library (it may be in a handler called by it). -/
def idle : List Frame → Bool
  | .app :: _ => true
  | _ => false

/-- The frame belongs to sigaction or monitor_sigaction. -/
def Frame.inCall : Frame → Bool
  | .app | .d0 | .d0' | .d1 | .d2 | .d3 | .d4 | .d5 _ => false
  | _ => true

/-- One thread at a time is in a function of the library, and no signal arrives there.  (All
threads that ever called something are in the history.) -/
def Alone (s : S) (l : Lbl) : Prop :=
  (∀ x ∈ s.g.tr, x.1 ≠ l.t → idle (s.th x.1) = true) ∧
    (l.i = .deliver → idle (s.th l.t) = true)

instance (s : S) (l : Lbl) : Decidable (Alone s l) := by unfold Alone; infer_instance

/-- A call to sigaction or monitor_sigaction is made only if no other is in progress: no such
frame is on any stack.  Signals may arrive at any time. -/
def OneCall (s : S) (l : Lbl) : Prop :=
  match l.i with
  | .sigaction _ _ | .client _ _ =>
    (∀ x ∈ s.g.tr, ∀ f ∈ s.th x.1, f.inCall = false) ∧ ∀ f ∈ s.th l.t, f.inCall = false
  | .unwind => ∀ f ∈ s.th l.t, f.inCall = false
  | _ => True

instance (s : S) (l : Lbl) : Decidable (OneCall s l) := by
  unfold OneCall; split <;> infer_instance

/-- No thread is in a function of the library. -/
def Quiet (s : S) : Prop := ∀ t, idle (s.th t) = true

end Libmonitor.SigC
