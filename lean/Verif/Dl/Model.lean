/-!
# common.c (symbol lookup) and dlopen.c

Dynamic case (LD_PRELOAD).  In the static case the real names are link-time constants
(common.h:134-142) and there is nothing to look up.
-/

namespace Libmonitor.Dl

abbrev ObjId := Nat
abbrev Sym := Nat

/-- A definition: the object that contains it and its address; address 0 is NULL (for
example an undefined weak or absolute symbol). -/
structure Def where
  owner : ObjId
  addr : Nat
  deriving DecidableEq, Repr

/-- A loaded object.  `opens`: `dlopen(name, RTLD_NOLOAD)` finds it (not the case for the vdso or
for names that cannot be looked up again).  `search`: the objects `dlsym(handle, ..)` looks at, in
order: the object and its dependencies, breadth first.  `defs`: its symbol table. -/
structure Obj where
  opens : Bool := true
  search : List ObjId
  defs : Sym → Option Nat

/-- The process: `scope` is the order in which the dynamic linker resolves global names (used by
RTLD_NEXT), `loaded` the order of dl_iterate_phdr; `self` is libmonitor.  Objects are identified by
their base address (common.c:58, 101), so distinct objects have distinct identities. -/
structure World where
  obj : ObjId → Obj
  scope : List ObjId
  loaded : List ObjId
  self : ObjId
  dladdrOk : Bool := true

/-- First definition of a symbol in a list of objects. -/
def World.find (w : World) (s : Sym) : List ObjId → Option Def
  | [] => none
  | o :: os =>
    match (w.obj o).defs s with
    | some a => some ⟨o, a⟩
    | none => w.find s os

/-- The part of a list after the first occurrence of `x`. -/
def after (x : ObjId) : List ObjId → List ObjId
  | [] => []
  | o :: os => if o = x then os else after x os

/-- dlsym(RTLD_NEXT, s) called from libmonitor; `none`: dlerror reports an error. -/
def World.rtldNext (w : World) (s : Sym) : Option Def := w.find s (after w.self w.scope)

/-- dlsym(handle of o, s); `none` is NULL, whether nothing is found or the value is 0. -/
def World.dlsym (w : World) (o : ObjId) (s : Sym) : Option Def :=
  match w.find s (w.obj o).search with
  | some d => if d.addr = 0 then none else some d
  | none => none

/-- The names the wrappers themselves look up (dlopen.c:87-88). -/
def symDlopen : Sym := 0
def symDlclose : Sym := 1

/-- What the client sees of the internal dlopen/dlclose calls (common.c:65 and 74 call the
overridden functions). -/
inductive Ev where
  | preDlopen (o : ObjId)
  | dlopen (o : ObjId) (ok : Bool)
  | dlclose (o : ObjId)
  | postDlclose (o : ObjId)
  deriving DecidableEq, Repr

/-- `real_dlopen`, `real_dlclose`, `init_done` (dlopen.c:70-71, 82). -/
structure St where
  realOpen : Option Def := none
  realClose : Option Def := none
  initDone : Bool := false
  ev : List Ev := []
  deriving DecidableEq, Repr

/-- Outcome of a lookup: the returned pointer, or MONITOR_ERROR (the process ends). -/
inductive Res where
  | ok (d : Def)
  | error
  deriving DecidableEq, Repr

def St.emit (st : St) (e : List Ev) : St := { st with ev := st.ev ++ e }

/-- dl_iterate_phdr(phdr_callback), common.c:52-76.  `skip` is `data->skip`.  `dlInit` is what
`monitor_dlopen_init` does when the overridden dlopen is entered; `none` means that the call
does not return, or ends the process (then `some (st, none)`). -/
def scan (w : World) (s : Sym) (dlInit : St → Option (St × Bool)) :
    Bool → List ObjId → St → Option (St × Res)
  | _, [], st => some (st, .error)
  | true, o :: os, st => scan w s dlInit (if o = w.self then false else true) os st
  | false, o :: os, st =>
    match dlInit st with
    | none => none
    | some (st, false) => some (st, .error)
    | some (st, true) =>
      let st := st.emit [.preDlopen o, .dlopen o (w.obj o).opens]
      if (w.obj o).opens then
        let st := st.emit [.dlclose o, .postDlclose o]
        match w.dlsym o s with
        | some d => some (st, .ok d)
        | none => scan w s dlInit false os st
      else scan w s dlInit false os st

/-- MONITOR_REQUIRE_DLSYM (common.h:126-130) for the two names of dlopen.c, then
`init_done = 1`: monitor_dlopen_init, dlopen.c:79-90.  `look` is monitor_dlsym. -/
def dlopenInit (look : Sym → St → Option (St × Res)) (st : St) : Option (St × Bool) :=
  if st.initDone then some (st, true)
  else
    match (if st.realOpen.isSome then some (st, Res.ok ⟨0, 0⟩) else look symDlopen st) with
    | none => none
    | some (st, .error) => some (st, false)
    | some (st, .ok d) =>
      let st := if st.realOpen.isSome then st else { st with realOpen := some d }
      match (if st.realClose.isSome then some (st, Res.ok ⟨0, 0⟩) else look symDlclose st) with
      | none => none
      | some (st, .error) => some (st, false)
      | some (st, .ok d) =>
        let st := if st.realClose.isSome then st else { st with realClose := some d }
        some ({ st with initDone := true }, true)

/-- monitor_dlsym, common.c:78-113.  Each nested lookup costs one unit of `fuel`; `none`: not
finished within that depth of recursion. -/
def lookup (w : World) : Nat → Sym → St → Option (St × Res)
  | 0, _, _ => none
  | fuel + 1, s, st =>
    match w.rtldNext s with
    | some d => some (st, .ok d)
    | none =>
      if w.dladdrOk = false then some (st, .error)
      else scan w s (dlopenInit (lookup w fuel)) true w.loaded st

/-! ### dlopen.c: nested and concurrent calls

A real dlopen runs constructors, a real dlclose runs destructors, callbacks are client
code, and a lookup may use the overridden dlopen: all of these may call dlopen and
dlclose again, and several threads may be inside at the same time. -/

abbrev Handle := Nat
abbrev Tid := Nat

/-- The four entry points, dlopen.c:101-146. -/
inductive Req where
  | open (path flags : Nat)
  | close (h : Handle)
  | realOpen (path flags : Nat)
  | realClose (h : Handle)
  deriving DecidableEq, Repr

/-- Events: callbacks, entry and return of the real functions, and what the caller gets. -/
inductive CEv where
  | preOpen (path flags : Nat)
  | open (path flags : Nat)
  | openRet (path flags : Nat) (h : Handle)
  | postOpen (path flags : Nat) (h : Handle)
  | gotOpen (path flags : Nat) (h : Handle)
  | preClose (h : Handle)
  | close (h : Handle)
  | closeRet (h : Handle) (ret : Int)
  | postClose (h : Handle) (ret : Int)
  | gotClose (h : Handle) (ret : Int)
  /-- calls are left without returning (longjmp, exception, end of the thread) -/
  | left
  deriving DecidableEq, Repr

/-- A call in progress: where it stands, with its locals. -/
inductive Frame where
  /-- dlopen.c:84, about to test `init_done` -/
  | init0 (q : Req)
  /-- dlopen.c:87, inside MONITOR_REQUIRE_DLSYM(real_dlopen) -/
  | init1 (q : Req)
  /-- dlopen.c:88, inside MONITOR_REQUIRE_DLSYM(real_dlclose) -/
  | init2 (q : Req)
  /-- dlopen.c:89 -/
  | init3 (q : Req)
  /-- dlopen.c:125, inside monitor_pre_dlopen -/
  | openPre (path flags : Nat)
  /-- dlopen.c:126, inside the real dlopen -/
  | openBody (path flags : Nat)
  /-- dlopen.c:127, inside monitor_dlopen -/
  | openPost (path flags : Nat) (h : Handle)
  /-- dlopen.c:140, inside monitor_dlclose -/
  | closePre (h : Handle)
  /-- dlopen.c:141, inside the real dlclose -/
  | closeBody (h : Handle)
  /-- dlopen.c:142, inside monitor_post_dlclose -/
  | closePost (h : Handle) (ret : Int)
  /-- dlopen.c:105, inside the real dlopen -/
  | rOpen (path flags : Nat)
  /-- dlopen.c:112, inside the real dlclose -/
  | rClose (h : Handle)
  deriving DecidableEq, Repr

/-- Process state: the pointers (`true` = not NULL), the flag, and for each thread its calls in
progress, innermost first. -/
structure Sys where
  ro : Bool := false
  rc : Bool := false
  initDone : Bool := false
  th : Tid → List Frame := fun _ => []

/-- What a thread does next: call one of the functions (from wherever it is), or let
the innermost foreign code (lookup, callback, real function) return: a real function returns
`h` or `r`, a lookup succeeds or not (`ok`); or leave the innermost `n` calls without returning, by
longjmp or an exception out of foreign code, or by ending the thread (dlopen.c has no cleanup
handler, so no code of libmonitor runs then).  A fork needs no step of its own: the child goes on
as an execution in which the other threads never move again. -/
inductive Inp where
  | call (q : Req)
  | ret (h : Handle) (r : Int) (ok : Bool)
  | leave (n : Nat)
  deriving DecidableEq, Repr

/-- Result of a step. -/
inductive Out where
  | ok (s : Sys) (ev : List CEv)
  /-- MONITOR_ERROR: the process ends -/
  | stop
  /-- call through a NULL pointer -/
  | crash

def setTh (s : Sys) (t : Tid) (l : List Frame) : Sys :=
  { s with th := fun u => if u = t then l else s.th u }

/-- Behind monitor_dlopen_init: dlopen.c:125, 140, 105, 112. -/
def enter (s : Sys) (t : Tid) (q : Req) (rest : List Frame) : Out :=
  match q with
  | .open p f => .ok (setTh s t (.openPre p f :: rest)) [.preOpen p f]
  | .close h => .ok (setTh s t (.closePre h :: rest)) [.preClose h]
  | .realOpen p f =>
    if s.ro then .ok (setTh s t (.rOpen p f :: rest)) [.open p f] else .crash
  | .realClose h =>
    if s.rc then .ok (setTh s t (.rClose h :: rest)) [.close h] else .crash

/-- One step of thread `t`, dlopen.c:79-146. -/
def cstep (s : Sys) (t : Tid) : Inp → Out
  | .call q => .ok (setTh s t (.init0 q :: s.th t)) []
  | .leave n => .ok (setTh s t ((s.th t).drop n)) [.left]
  | .ret h r ok =>
    match s.th t with
    | [] => .ok s []
    | .init0 q :: rest =>
      if s.initDone then enter s t q rest
      else .ok (setTh s t (.init1 q :: rest)) []
    | .init1 q :: rest =>
      if s.ro then .ok (setTh s t (.init2 q :: rest)) []
      else if ok then .ok (setTh { s with ro := true } t (.init2 q :: rest)) []
      else .stop
    | .init2 q :: rest =>
      if s.rc then .ok (setTh s t (.init3 q :: rest)) []
      else if ok then .ok (setTh { s with rc := true } t (.init3 q :: rest)) []
      else .stop
    | .init3 q :: rest => enter { s with initDone := true } t q rest
    | .openPre p f :: rest =>
      if s.ro then .ok (setTh s t (.openBody p f :: rest)) [.open p f] else .crash
    | .openBody p f :: rest =>
      .ok (setTh s t (.openPost p f h :: rest)) [.openRet p f h, .postOpen p f h]
    | .openPost p f h :: rest => .ok (setTh s t rest) [.gotOpen p f h]
    | .closePre h :: rest =>
      if s.rc then .ok (setTh s t (.closeBody h :: rest)) [.close h] else .crash
    | .closeBody h :: rest =>
      .ok (setTh s t (.closePost h r :: rest)) [.closeRet h r, .postClose h r]
    | .closePost h r :: rest => .ok (setTh s t rest) [.gotClose h r]
    | .rOpen p f :: rest => .ok (setTh s t rest) [.openRet p f h, .gotOpen p f h]
    | .rClose h :: rest => .ok (setTh s t rest) [.closeRet h r, .gotClose h r]

/-- Execution of a schedule; the trace records the thread of each event. -/
def crun : Sys → List (Tid × CEv) → List (Tid × Inp) → Out × List (Tid × CEv)
  | s, tr, [] => (.ok s [], tr)
  | s, tr, (t, i) :: rest =>
    match cstep s t i with
    | .ok s' ev => crun s' (tr ++ ev.map (fun e => (t, e))) rest
    | .stop => (.stop, tr)
    | .crash => (.crash, tr)

/-- The events of one thread. -/
def ofThread (t : Tid) (tr : List (Tid × CEv)) : List CEv :=
  (tr.filter (fun x => x.1 == t)).map Prod.snd

end Libmonitor.Dl
