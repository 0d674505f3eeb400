import Verif.Fork.Model

/-!
# Model of `monitor_system` (fork.c:523-603)
-/

namespace Libmonitor.Fork

/-- The kernel's signal state that matters here: actions of SIGINT and SIGQUIT (any type of
action with a distinguished "ignore") and the calling thread's mask. -/
structure Kern (A : Type) where
  int : A
  quit : A
  mask : Nat → Bool

/-- One result of waitpid (fork.c:585-590). -/
inductive Wait where
  | eintr
  | fail
  | status (s : Int)
  deriving DecidableEq, Repr

/-- What fork does, seen by the caller. -/
inductive ForkRes where
  | fail
  | parent (pid : Nat)
  deriving DecidableEq, Repr

def ForkRes.pid : ForkRes → Int
  | .fail => -1
  | .parent p => p

/-- Observable events of system() in the calling process. `waiting` records the signal state
while the child runs. -/
inductive SysEv (A : Type) where
  | preFork
  | waiting (k : Kern A)
  | postFork (pid : Int) (data : Int)

def SIGCHLD : Nat := 17

def block (m : Nat → Bool) (s : Nat) : Nat → Bool := fun k => m k || k == s

/-- `while (waitpid(...) < 0)` (fork.c:585-590).  `none`: still waiting when the given
results are used up. -/
def waitLoop : List Wait → Option Int
  | [] => none
  | .eintr :: ws => waitLoop ws
  | .fail :: _ => some (-1)
  | .status s :: _ => some s

/-- `monitor_system` in the calling process (fork.c:523-603).  `ign` is the SIG_IGN action,
`data` the value of monitor_pre_fork.  Result: state, events, and the return value (`none`:
still waiting). -/
def system {A} (ign : A) (callback shellOk : Bool) (command : Option Str) (data : Int)
    (fork : ForkRes) (waits : List Wait) (k : Kern A) : Kern A × List (SysEv A) × Option Int :=
  match command with
  | none => (k, [], some (if shellOk then 1 else 0))
  | some _ =>
    let e1 := if callback then [SysEv.preFork] else []
    let data := if callback then data else 0
    let oldInt := k.int
    let k1 := { k with int := ign }
    let oldQuit := k1.quit
    let k2 := { k1 with quit := ign }
    let oldSet := k2.mask
    let k3 := { k2 with mask := block k2.mask SIGCHLD }
    let (e2, status) := match fork with
      | .fail => (([] : List (SysEv A)), some (-1 : Int))
      | .parent _ => ([SysEv.waiting k3], waitLoop waits)
    match status with
    | none => (k3, e1 ++ e2, none)
    | some st =>
      let k4 := { k3 with int := oldInt }
      let k5 := { k4 with quit := oldQuit }
      let k6 := { k5 with mask := oldSet }
      let e3 := if callback then [SysEv.postFork fork.pid data] else []
      (k6, e1 ++ e2 ++ e3, some st)

/-- What the child of system() does (fork.c:568-582): the image it execs, with its signal
state, and the exit status if exec fails. -/
structure ChildExec (A : Type) where
  file : Str
  argv : List Ptr
  env : List Ptr
  kern : Kern A
  /-- exit status after a failed exec, through `monitor_real_exit` (no callbacks) -/
  failExit : Int

def systemChild {A} (ign : A) (callback : Bool) (command : Str) (environ : List Ptr)
    (sysconf : Int) (mmapOk : Bool) (static : List Ptr) (k : Kern A) : Res (ChildExec A) := do
  -- state inherited at the fork
  let oldInt := k.int
  let oldQuit := k.quit
  let oldSet := k.mask
  let k3 : Kern A := { int := ign, quit := ign, mask := block k.mask SIGCHLD }
  let k4 := { k3 with int := oldInt }
  let k5 := { k4 with quit := oldQuit }
  let k6 := { k5 with mask := oldSet }
  let env ← if callback then .ret environ else copyEnviron environ sysconf mmapOk static
  .ret { file := "/bin/sh".toList,
         argv := [some "/bin/sh".toList, some "-c".toList, some command, none],
         env := env, kern := k6, failExit := 127 }

/-! ### Several threads in system() at the same time

The two `sigaction` calls act on the whole process; each thread keeps the old value in a
local variable (fork.c:526, 558-559, 592-593).  One step per sigaction call on SIGINT is
enough for the point made here. -/

/-- Process-wide SIGINT action and, per thread, the saved action while inside system(). -/
structure Conc (A : Type) where
  cur : A
  saved : Nat → Option A

inductive CStep where
  | enter (t : Nat)
  | leave (t : Nat)
  deriving DecidableEq, Repr

/-- `sigaction(SIGINT, &ign_act, &old_int)` resp. `sigaction(SIGINT, &old_int, NULL)` of a
thread; `none` if the thread is not at that point. -/
def cstep {A} (ign : A) (s : Conc A) : CStep → Option (Conc A)
  | .enter t => match s.saved t with
    | none => some { cur := ign, saved := fun u => if u = t then some s.cur else s.saved u }
    | some _ => none
  | .leave t => match s.saved t with
    | none => none
    | some a => some { cur := a, saved := fun u => if u = t then none else s.saved u }

def crun {A} (ign : A) (s : Conc A) : List CStep → Option (Conc A)
  | [] => some s
  | c :: cs => match cstep ign s c with
    | none => none
    | some s => crun ign s cs

end Libmonitor.Fork
