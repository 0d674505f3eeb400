import Verif.AttrC.Model

/-!
# What is claimed about attributes in several threads (C79, C80, C81)

Histories are latest first.
-/

namespace Libmonitor.AttrC

open Attr (Obj)

/-- What the application has made of its object `a`: the result of its own calls alone. -/
def wish (a : Id) : List Ev → Option Obj
  | [] => none
  | .use (.init b) :: r => if b = a then some {} else wish a r
  | .use (.drop b) :: r => if b = a then none else wish a r
  | .use (.size b n) :: r =>
    if b = a then (wish a r).map fun o => { o with size := some n } else wish a r
  | .use (.stack b top n) :: r =>
    if b = a then (wish a r).map fun _ => { size := some n, top := some top } else wish a r
  | _ :: r => wish a r

/-- `d` is or was the default size of the system. -/
def WasDefault (d0 : Nat) (tr : List Ev) (d : Nat) : Prop := d = d0 ∨ Ev.use (.default d) ∈ tr

/-- Object `o` is as the application wants it, `w`, except that where the application has set no size a
size that was the default at some time may have been set. -/
def AsWished (d0 : Nat) (tr : List Ev) (w o : Obj) : Prop :=
  o = w ∨ w.size = none ∧ ∃ d, WasDefault d0 tr d ∧ o = { w with size := some d }

/-- Call `c` has begun and not ended. -/
def S.running (s : S) (c : Call) : Bool :=
  match s.pc c with
  | .none | .done | .gone => false
  | _ => true

/-- Some call that was made with object `a` is running. -/
def Busy (a : Id) (s : S) : Prop := ∃ c, s.running c = true ∧ s.att c = some a

/-- The object that the application's call is about. -/
def Use.about : Use → Option Id
  | .init a | .drop a | .size a _ | .stack a _ _ => some a
  | .default _ => none

/-- Object `a` is used by one call at a time: no call is made with it, and the application does not
change it, while another call with it is running; these calls are not left by longjmp or thread exit, no
other thread forks meanwhile, and setting the old size again succeeds.  Everything else may happen. -/
def OneAtATime (a : Id) (s : S) (l : Lbl) : Prop :=
  match l with
  | .create _ (some b) => b = a → ¬ Busy a s
  | .use _ u => u.about = some a → ¬ Busy a s
  | .unwind t => ∀ c rest, s.th t = .call c :: rest → s.att c ≠ some a
  | .fork t => ∀ c, s.running c = true → s.att c = some a → .call c ∈ s.th t
  | .step t ok _ => ∀ c rest old d r, s.th t = .call c :: rest → s.att c = some a →
      s.pc c = .restore old d r → ok = true
  | _ => True

/-- The client answers with the size that it is told, as the default callback does
(callback.c:119-124). -/
def Agrees (s : S) (l : Lbl) : Prop :=
  ∀ t ok n c rest old, l = .step t ok n → s.th t = .call c :: rest → s.pc c = .ask old → n = old

/-- `P` holds of each event and the history before it. -/
def Always (P : List Ev → Ev → Prop) : List Ev → Prop
  | [] => True
  | e :: r => P r e ∧ Always P r

/-- The number of the call that an event belongs to. -/
def Ev.call : Ev → Option Call
  | .enter c _ | .init c _ | .get c _ _ | .set c _ _ _ | .destroy c | .ask c _ _ | .create c _ _ _
  | .ret c _ => some c
  | .ub _ _ | .use _ | .fork => none

/-- What call `c` does, earliest first. -/
def ofCall (c : Call) (tr : List Ev) : List Ev := (tr.filter fun e => e.call == some c).reverse

/-- What a call does with the attribute object `p` before the real call, and whether the client's size is
then in the object: the size is read, the client is asked, and a different size is set. -/
inductive Adjust (c : Call) (p : Ptr) : List Ev → Option (Nat × Nat) → Prop where
  | noGet : Adjust c p [.get c p false] none
  | same (n : Nat) : Adjust c p [.get c p true, .ask c n n] none
  | noSet (old new : Nat) : new ≠ old → Adjust c p [.get c p true, .ask c old new, .set c p new false] none
  | set (old new : Nat) : new ≠ old →
      Adjust c p [.get c p true, .ask c old new, .set c p new true] (some (old, new))

/-- What a whole call does. -/
inductive Script (c : Call) : List Ev → Prop where
  /-- ignored threads: the application's argument is passed on -/
  | ignored (a : Option Id) (o : Option Obj) (r : Nat) :
      Script c [.enter c a, .create c (orig a) o r, .ret c r]
  /-- with the application's object, unchanged -/
  | kept (a : Id) (l : List Ev) (o : Option Obj) (r : Nat) : Adjust c (.app a) l none →
      Script c ([.enter c (some a)] ++ l ++ [.create c (.app a) o r, .ret c r])
  /-- ... with the client's size, and then the size that was read is set again -/
  | changed (a : Id) (l : List Ev) (old new : Nat) (o : Option Obj) (r : Nat) (ok : Bool) :
      Adjust c (.app a) l (some (old, new)) →
      Script c ([.enter c (some a)] ++ l ++ [.create c (.app a) o r, .set c (.app a) old ok, .ret c r])
  /-- no object was given, and there is none -/
  | noInit (r : Nat) :
      Script c [.enter c none, .init c false, .create c .null none r, .ret c r]
  /-- no object was given, and the local one is not used -/
  | plain (l : List Ev) (r : Nat) : Adjust c .dflt l none →
      Script c ([.enter c none, .init c true] ++ l ++ [.create c .null none r, .destroy c, .ret c r])
  /-- no object was given, and the local one is used: it has the client's size and nothing else -/
  | own (l : List Ev) (old new : Nat) (r : Nat) : Adjust c .dflt l (some (old, new)) →
      Script c ([.enter c none, .init c true] ++ l ++
        [.create c .dflt (some { size := some new }) r, .destroy c, .ret c r])

end Libmonitor.AttrC
