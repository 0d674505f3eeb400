/-!
# pthread.c: stack size of a new thread

`pthread_create` lets the client change the stack size in the application's attribute
object (or in a default one) around the real `pthread_create`.
-/

namespace Libmonitor.Attr

/-- A thread attribute object.  `size = none`: never set, the system default applies.
`top = some a`: the application supplied its own stack memory with `pthread_attr_setstack`;
as in glibc the object remembers the upper end, so the memory is `[a - size, a)`. -/
structure Obj where
  size : Option Nat := none
  top : Option Nat := none
  deriving DecidableEq, Repr

/-- pthread_attr_getstacksize. -/
def Obj.stackSize (sysDefault : Nat) (o : Obj) : Nat := o.size.getD sysDefault

/-- Which attribute pointer is meant: NULL, the application's object, or the local variable
`default_attr` of pthread_create (pthread.c:1063). -/
inductive Ptr where
  | null
  | app
  | dflt
  deriving DecidableEq, Repr

/-- Calls of the real functions.  `create p s`: the real pthread_create got pointer `p`, whose
stack memory is as given by the object `s` at that time (`none` for NULL). -/
inductive Ev where
  | init (ok : Bool)
  | get (p : Ptr) (ok : Bool)
  | set (p : Ptr) (size : Nat) (ok : Bool)
  | create (p : Ptr) (o : Option Obj)
  | destroy (p : Ptr)
  deriving DecidableEq, Repr

/-- `app`: the application's object, `none` if it passed NULL; `dflt`: the local object,
`none` while not initialised. -/
structure World where
  app : Option Obj
  dflt : Option Obj := none
  log : List Ev := []
  deriving DecidableEq, Repr

/-- Results of the external calls.  `reset` is the client's monitor_reset_stacksize. -/
structure Ext where
  sysDefault : Nat
  initOk : Bool
  getOk : Bool
  reset : Nat → Nat
  setOk : Bool
  restoreOk : Bool
  createRet : Int

def World.get (w : World) : Ptr → Option Obj
  | .null => none
  | .app => w.app
  | .dflt => w.dflt

def World.put (w : World) : Ptr → Obj → World
  | .null, _ => w
  | .app, o => { w with app := some o }
  | .dflt, o => { w with dflt := some o }

def World.ev (w : World) (e : Ev) : World := { w with log := w.log ++ [e] }

/-- Result of monitor_adjust_stack_size: the pointer for the real call and the out
parameters (pthread.c:1012-1015). -/
structure Adj where
  attr : Ptr
  restore : Bool
  destroy : Bool
  oldSize : Nat
  deriving DecidableEq, Repr

/-- The application's pointer. -/
def World.orig (w : World) : Ptr := if w.app.isSome then .app else .null

/-- pthread.c:1033-1052, after `attr` has been chosen.  An object that does not exist would be
undefined behaviour (`none`). -/
def adjustWith (x : Ext) (w : World) (orig attr : Ptr) (destroy : Bool) :
    Option (World × Adj) :=
  match w.get attr with
  | none => none
  | some o =>
    let w := w.ev (.get attr x.getOk)
    if x.getOk = false then some (w, ⟨orig, false, destroy, 0⟩)
    else
      let old := o.stackSize x.sysDefault
      let new := x.reset old
      if new = old then some (w, ⟨orig, false, destroy, old⟩)
      else
        let w := w.ev (.set attr new x.setOk)
        if x.setOk = false then some (w, ⟨orig, false, destroy, old⟩)
        else some (w.put attr { o with size := some new },
          ⟨attr, decide (attr = orig), destroy, old⟩)

/-- monitor_adjust_stack_size, pthread.c:1012-1053. -/
def adjust (x : Ext) (w : World) : Option (World × Adj) :=
  if w.app.isSome then adjustWith x w .app .app false
  else
    let w' := w.ev (.init x.initOk)
    if x.initOk = false then some (w', ⟨.null, false, false, 0⟩)
    else adjustWith x { w' with dflt := some {} } .null .dflt true

/-- pthread.c:1148-1161: adjust, real call, restore, destroy.  `none` is undefined
behaviour: destroying or setting an object that does not exist. -/
def createNormal (x : Ext) (w : World) : Option (World × Int) := do
  let (w, a) ← adjust x w
  let w := w.ev (.create a.attr (w.get a.attr))
  let w ← (if a.restore then
      match w.get a.attr with
      | none => none
      | some o =>
        let w := w.ev (.set a.attr a.oldSize x.restoreOk)
        some (if x.restoreOk then w.put a.attr { o with size := some a.oldSize } else w)
    else some w)
  let w ← (if a.destroy then
      match w.dflt with
      | none => none
      | some _ => some { w.ev (.destroy .dflt) with dflt := none }
    else some w)
  pure (w, x.createRet)

/-- pthread_create, pthread.c:1058-1177, reduced to what happens to the attributes.  `direct`:
the thread is ignored (pthread.c:1105-1108, 1132-1135). -/
def pthreadCreate (x : Ext) (direct : Bool) (w : World) : Option (World × Int) :=
  if direct then some (w.ev (.create w.orig (w.get w.orig)), x.createRet)
  else createNormal x w

/-! ### Several threads using one attribute object at the same time

POSIX allows this: pthread_create takes a pointer to const.  Each call is cut at its
accesses to the object. -/

/-- Progress of one call on the shared object: before getstacksize, before setstacksize,
before the real call, before restoring, finished. -/
inductive CallPc where
  | get
  | set (old : Nat)
  | create (old : Nat) (restore : Bool)
  | restore (old : Nat)
  | done (seen : Nat)
  deriving DecidableEq, Repr

structure Shared where
  size : Nat
  pc : Nat → CallPc := fun _ => .get
  seen : Nat → Option Nat := fun _ => none

/-- One access of call `t` (pthread.c:1033, 1042, 1153, 1157), all attribute calls succeed.
The client's choice is `reset`. -/
def sharedStep (reset : Nat → Nat) (s : Shared) (t : Nat) : Shared :=
  let pcTo (s : Shared) (p : CallPc) : Shared :=
    { s with pc := fun u => if u = t then p else s.pc u }
  match s.pc t with
  | .get => pcTo s (if reset s.size = s.size then .create s.size false else .set s.size)
  | .set old => pcTo { s with size := reset old } (.create old true)
  | .create old r =>
    let s := { s with seen := fun u => if u = t then some s.size else s.seen u }
    pcTo s (if r then .restore old else .done s.size)
  | .restore old => pcTo { s with size := old } (.done old)
  | .done x => pcTo s (.done x)

/-- A schedule. -/
def sharedRun (reset : Nat → Nat) : List Nat → Shared → Shared
  | [], s => s
  | t :: l, s => sharedRun reset l (sharedStep reset s t)

end Libmonitor.Attr
