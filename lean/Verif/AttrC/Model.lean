import Verif.Attr.Model

/-!
# Attributes of new threads in programs with several threads

pthread_create (pthread.c:1058-1177) with monitor_adjust_stack_size (pthread.c:1012-1053), reduced to the
attribute objects, in any number of threads, callbacks and signal handlers.  Any number of attribute
objects of the application, which changes them when it likes; and the local object of each call.

Simplifications: each of the functions for attributes reads or writes its object in one step; an object
has a stack size and perhaps a stack; all threads are there from the beginning (so a thread may act
before it is made); a frame may be left from everywhere.
-/

namespace Libmonitor.AttrC

open Attr (Obj)

abbrev Tid := Nat
/-- Numbers the calls of pthread_create. -/
abbrev Call := Nat
/-- Numbers the attribute objects of the application. -/
abbrev Id := Nat

/-- A pointer to an attribute object: NULL, an object of the application, the local object `default_attr`
(pthread.c:1063) of the call. -/
inductive Ptr where
  | null
  | app (a : Id)
  | dflt
  deriving DecidableEq, Repr

/-- What the application does with objects: pthread_attr_init, pthread_attr_destroy,
pthread_attr_setstacksize, pthread_attr_setstack (`top` is the upper end), pthread_setattr_default_np. -/
inductive Use where
  | init (a : Id)
  | drop (a : Id)
  | size (a : Id) (n : Nat)
  | stack (a : Id) (top n : Nat)
  | default (n : Nat)
  deriving DecidableEq, Repr

inductive Ev where
  | enter (c : Call) (a : Option Id)
  /-- the real pthread_attr_init, getstacksize, setstacksize, destroy, and whether they succeed -/
  | init (c : Call) (ok : Bool)
  | get (c : Call) (p : Ptr) (ok : Bool)
  | set (c : Call) (p : Ptr) (n : Nat) (ok : Bool)
  | destroy (c : Call)
  /-- monitor_reset_stacksize(old) returns `new` -/
  | ask (c : Call) (old new : Nat)
  /-- the real pthread_create gets pointer `p`, to an object that is `o` at that time, and returns `r` -/
  | create (c : Call) (p : Ptr) (o : Option Obj) (r : Nat)
  | ret (c : Call) (r : Nat)
  /-- an object that is not initialised is used -/
  | ub (c : Call) (p : Ptr)
  | use (u : Use)
  /-- here a child made by fork begins -/
  | fork
  deriving DecidableEq, Repr

/-- Where a call is. -/
inductive Pc where
  /-- not made yet -/
  | none
  /-- up to the call of monitor_adjust_stack_size, with monitor_thread_pre_create and other callbacks
  (pthread.c:1072-1149) -/
  | pre
  /-- before the real call for an ignored thread (pthread.c:1107, 1134) -/
  | direct
  /-- pthread.c:1025; 1033; 1038; 1042 -/
  | init
  | get
  | ask (old : Nat)
  | set (old new : Nat)
  /-- pthread.c:1153, with the pointer, the size to restore, and whether to destroy -/
  | create (p : Ptr) (restore : Option Nat) (destroy : Bool)
  /-- pthread.c:1157; 1160, with the result of the real call -/
  | restore (old : Nat) (destroy : Bool) (r : Nat)
  | destroy (r : Nat)
  /-- monitor_thread_post_create and the return (pthread.c:1167-1176) -/
  | post (r : Nat)
  /-- it has returned -/
  | done
  /-- it will never return: its frame was left by longjmp or the end of the thread, or its thread is not
  in this process -/
  | gone
  deriving DecidableEq, Repr

/-- What a thread is in: a call of pthread_create, or a callback or signal handler. -/
inductive Slot where
  | call (c : Call)
  | out
  deriving DecidableEq, Repr

structure S where
  /-- the default stack size of the system -/
  dflt : Nat
  /-- the application's objects, and the local ones -/
  obj : Id → Option Obj := fun _ => .none
  loc : Call → Option Obj := fun _ => .none
  att : Call → Option Id := fun _ => .none
  pc : Call → Pc := fun _ => .none
  nextC : Call := 0
  /-- innermost first; `[]` is the outermost code of the thread -/
  th : Tid → List Slot := fun _ => []
  /-- undefined behaviour has occurred -/
  dead : Bool := false
  tr : List Ev := []

/-- The argument of a call. -/
def orig : Option Id → Ptr
  | .none => .null
  | some a => .app a

/-- The pointer `attr` in monitor_adjust_stack_size (pthread.c:1023-1032). -/
def target : Option Id → Ptr
  | .none => .dflt
  | some a => .app a

/-- The object of call `c` at `p`. -/
def S.cell (s : S) (c : Call) : Ptr → Option Obj
  | .null => .none
  | .app a => s.obj a
  | .dflt => s.loc c

def S.log (s : S) (e : Ev) : S := { s with tr := e :: s.tr }
def S.goto (s : S) (c : Call) (p : Pc) : S := { s with pc := fun d => if d = c then p else s.pc d }
def S.putApp (s : S) (a : Id) (o : Option Obj) : S := { s with obj := fun b => if b = a then o else s.obj b }
def S.putLoc (s : S) (c : Call) (o : Option Obj) : S := { s with loc := fun d => if d = c then o else s.loc d }
def S.setTh (s : S) (t : Tid) (l : List Slot) : S := { s with th := fun u => if u = t then l else s.th u }

def S.put (s : S) (c : Call) : Ptr → Obj → S
  | .null, _ => s
  | .app a, o => s.putApp a (some o)
  | .dflt, o => s.putLoc c (some o)

/-- An object that is not there is used. -/
def S.crash (s : S) (c : Call) (p : Ptr) : S := { s.log (.ub c p) with dead := true }

/-- setstacksize on an object that is `o`, if it succeeds. -/
def S.resize (s : S) (c : Call) (p : Ptr) (o : Obj) (n : Nat) (ok : Bool) : S :=
  let s := s.log (.set c p n ok)
  if ok then s.put c p { o with size := some n } else s

/-- What follows the real call and restoring (pthread.c:1156-1161). -/
def cleanup (destroy : Bool) (r : Nat) : Pc := if destroy then .destroy r else .post r

/-- What follows the real call. -/
def afterReal (d : Bool) (r : Nat) : Option Nat → Pc
  | some old => .restore old d r
  | .none => cleanup d r

/-- The real pthread_create (pthread.c:1107, 1134, 1153). -/
def S.real (s : S) (c : Call) (p : Ptr) (r : Nat) (then_ : S → S) : S :=
  if p = .null then then_ (s.log (.create c p .none r))
  else match s.cell c p with
    | .none => s.crash c p
    | some o => then_ (s.log (.create c p (some o) r))

/-- One step of call `c`, which thread `t` is in, innermost.  `ok` and `n` are the result of what is
called; at `pre`, `ok` tells whether the new thread is ignored (pthread.c:1105, 1132). -/
def cstep (s : S) (t : Tid) (c : Call) (rest : List Slot) (ok : Bool) (n : Nat) : Pc → Option S
  | .none => .none
  | .pre =>
    if ok then some (s.goto c .direct)
    else some (s.goto c (if s.att c = .none then .init else .get))
  | .direct => some (s.real c (orig (s.att c)) n fun s => ((s.log (.ret c n)).goto c .done).setTh t rest)
  | .init =>
    let s := s.log (.init c ok)
    if ok then some ((s.putLoc c (some {})).goto c .get)
    else some (s.goto c (.create .null .none false))
  | .get =>
    let p := target (s.att c)
    match s.cell c p with
    | .none => some (s.crash c p)
    | some o =>
      let s := s.log (.get c p ok)
      if ok then some (s.goto c (.ask (o.stackSize s.dflt)))
      else some (s.goto c (.create (orig (s.att c)) .none (s.att c).isNone))
  | .ask old =>
    let s := s.log (.ask c old n)
    if n = old then some (s.goto c (.create (orig (s.att c)) .none (s.att c).isNone))
    else some (s.goto c (.set old n))
  | .set old new =>
    let p := target (s.att c)
    match s.cell c p with
    | .none => some (s.crash c p)
    | some o =>
      let s := s.resize c p o new ok
      if ok then some (s.goto c (.create p (if p = orig (s.att c) then some old else .none) (s.att c).isNone))
      else some (s.goto c (.create (orig (s.att c)) .none (s.att c).isNone))
  | .create p r d => some (s.real c p n fun s => s.goto c (afterReal d n r))
  | .restore old d r =>
    let p := orig (s.att c)
    match s.cell c p with
    | .none => some (s.crash c p)
    | some o => some ((s.resize c p o old ok).goto c (cleanup d r))
  | .destroy r =>
    match s.loc c with
    | .none => some (s.crash c .dflt)
    | some _ => some (((s.log (.destroy c)).putLoc c .none).goto c (.post r))
  | .post r => some (((s.log (.ret c r)).goto c .done).setTh t rest)
  | .done => .none
  | .gone => .none

/-- The application's calls.  Using an object that is not initialised does nothing here. -/
def S.use (s : S) : Use → S
  | .init a => s.putApp a (some {})
  | .drop a => s.putApp a .none
  | .size a n => s.putApp a ((s.obj a).map fun o => { o with size := some n })
  | .stack a top n => s.putApp a ((s.obj a).map fun _ => { size := some n, top := some top })
  | .default n => { s with dflt := n }

inductive Lbl where
  /-- the call that thread `t` is in goes on -/
  | step (t : Tid) (ok : Bool) (n : Nat)
  /-- code of the application or the client calls pthread_create, with or without an object; uses objects;
  forks (the child is followed) -/
  | create (t : Tid) (a : Option Id)
  | use (t : Tid) (u : Use)
  | fork (t : Tid)
  /-- a callback or a signal handler begins, and returns -/
  | out (t : Tid)
  | back (t : Tid)
  /-- the innermost frame is left by longjmp, pthread_exit or cancellation -/
  | unwind (t : Tid)
  deriving DecidableEq, Repr

/-- The thread runs code of the application or the client. -/
def outside : List Slot → Bool
  | .call _ :: _ => false
  | _ => true

def next (s : S) (l : Lbl) : Option S :=
  if s.dead then .none
  else match l with
    | .step t ok n =>
      match s.th t with
      | .call c :: rest => cstep s t c rest ok n (s.pc c)
      | _ => .none
    | .create t a =>
      if outside (s.th t) then
        let c := s.nextC
        some ({ (s.log (.enter c a)).goto c .pre with
          att := fun d => if d = c then a else s.att d
          nextC := c + 1 }.setTh t (.call c :: s.th t))
      else .none
    | .use t u => if outside (s.th t) then some ((s.log (.use u)).use u) else .none
    | .fork t =>
      if outside (s.th t) then
        some { s.log .fork with
          pc := fun c => if s.pc c = .none ∨ s.pc c = .done ∨ .call c ∈ s.th t then s.pc c else .gone
          th := fun u => if u = t then s.th t else [] }
      else .none
    | .out t => some (s.setTh t (.out :: s.th t))
    | .back t =>
      match s.th t with
      | .out :: rest => some (s.setTh t rest)
      | _ => .none
    | .unwind t =>
      match s.th t with
      | .out :: rest => some (s.setTh t rest)
      | .call c :: rest => some ((s.goto c .gone).setTh t rest)
      | [] => .none

/-- Executions whose labels satisfy `A`; at first there are no objects, and the default size is `d0`. -/
inductive ReachA (A : S → Lbl → Prop) (d0 : Nat) : S → Prop where
  | init : ReachA A d0 { dflt := d0 }
  | next {s s' : S} {l : Lbl} : ReachA A d0 s → A s l → next s l = some s' → ReachA A d0 s'

abbrev Reach := ReachA fun _ _ => True

end Libmonitor.AttrC
