import Verif.Attr.Model

/-!
# What the application and the client expect
-/

namespace Libmonitor.Attr.Spec

/-- The stack size the application's arguments ask for. -/
def appSize (x : Ext) (app : Option Obj) : Nat :=
  match app with
  | none => x.sysDefault
  | some o => o.stackSize x.sysDefault

/-- The client's size can be put into effect: there is an object, its size can be read, and
the client's size can be stored. -/
def settable (x : Ext) (app : Option Obj) : Bool :=
  (app.isSome || x.initOk) && x.getOk && x.setOk

/-- Stack size a thread created with these arguments has. -/
def createdSize (x : Ext) : Ev → Option Nat
  | .create _ o => some (appSize x o)
  | _ => none

/-- The stack size the new thread should get. -/
def wanted (x : Ext) (app : Option Obj) : Nat :=
  if settable x app then x.reset (appSize x app) else appSize x app

def inits (l : List Ev) : Nat := l.countP fun e => decide (e = .init true)
def destroys (l : List Ev) : Nat := l.countP fun e => match e with | .destroy _ => true | _ => false
def creates (l : List Ev) : List Ev := l.filter fun e => match e with | .create _ _ => true | _ => false

/-- Addresses of the stack of a created thread, if the application supplied the memory. -/
def stackRange (x : Ext) : Ev → Option (Int × Int)
  | .create _ (some o) => o.top.map fun (t : Nat) => ((t : Int) - (o.stackSize x.sysDefault : Int), (t : Int))
  | _ => none

end Libmonitor.Attr.Spec
