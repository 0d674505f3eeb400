/-!
# The error indicator (errno) in the overrides

What the overrides of libc functions do to `errno`, for fork, vfork, system, exec*, sigaction, signal,
sigprocmask, sigwait, sigwaitinfo, sigtimedwait; and to dlerror for dlopen and dlclose, where
`errno` below stands for dlerror's state.

Everything outside the override (real functions, callbacks, messages, the other functions of the library)
is an external call that returns any value and may leave any value in errno: C allows a call that
succeeds to change errno.  `errno` is thread local, so one thread is enough.
-/

namespace Libmonitor.Err

/-- External calls. -/
inductive Fn where
  /-- MONITOR_DEBUG with debugging on, common.h:89-95; MONITOR_WARN, common.h:97-101 -/
  | debug | warn
  /-- first-time initialisation: monitor_fork_init, monitor_signal_init, ... -/
  | init
  /-- client callbacks -/
  | preFork | postFork | preDlopen | cbDlopen | cbDlclose | postDlclose
  /-- monitor_begin_process_fcn, monitor_end_process_fcn, monitor_end_library_fcn -/
  | beginProcess | endProcess | endLibrary
  /-- access, or monitor_is_executable; 0: looks executable -/
  | access
  | copyEnv
  /-- tests of monitor_sigwait_helper (pthread.c:1254-1261), fini-thread, the client's handler, sigismember -/
  | test | finiThread | client | member
  /-- the application's handler, raise(SIGSTOP) -/
  | handler | raise
  /-- real functions -/
  | fork | exec | system | waitpid | sigaction | sigprocmask | sigwaitinfo | dlopen | dlclose
  deriving DecidableEq, Repr

/-- One external call: its result, errno before and after. -/
structure Entry where
  fn : Fn
  ret : Int
  before : Nat
  after : Nat
  deriving DecidableEq, Repr

/-- errno, and the calls so far, latest first. -/
structure W where
  errno : Nat
  log : List Entry := []
  deriving DecidableEq, Repr

/-- The outside: debugging on?, and result and effect on errno (`none`: unchanged) of the `k`-th
external call. -/
structure Env where
  debug : Bool
  out : Nat → Int × Option Nat

/-- An external call. -/
def ext (x : Env) (f : Fn) (w : W) : Int × W :=
  let o := x.out w.log.length
  let e := o.2.getD w.errno
  (o.1, { errno := e, log := ⟨f, o.1, w.errno, e⟩ :: w.log })

/-- An external call whose result is not used. -/
def ext' (x : Env) (f : Fn) (w : W) : W := (ext x f w).2

/-- MONITOR_DEBUG, common.h:89-95. -/
def dbg (x : Env) (w : W) : W := if x.debug then ext' x .debug w else w

/-- Assignment to errno. -/
def W.set (w : W) (e : Nat) : W := { w with errno := e }

def EINTR : Nat := 4
def EACCES : Nat := 13
def EINVAL : Nat := 22

/-- monitor_fork, fork.c:306-333 (fork and vfork call it, fork.c:335-345); the child's side when the real fork returns 0. -/
def fork (x : Env) (w : W) : Int × W :=
  let w := ext' x .preFork (dbg x (ext' x .init w))
  let (ret, w) := ext x .fork w
  if ret ≠ 0 then
    let w := if ret < 0 then dbg x w else w
    (ret, ext' x .postFork (dbg x w))
  else (ret, ext' x .beginProcess (dbg x w))

/-- monitor_execv, monitor_execvp, monitor_execve, fork.c:355-435; returns only if the real function
fails. -/
def exec (x : Env) (dynamic : Bool) (w : W) : Int × W :=
  let (a, w) := ext x .access (ext' x .init w)
  let w := dbg x w
  let w := if a = 0 then
      let w := ext' x .endProcess w
      if dynamic then ext' x .endLibrary w else w
    else w
  let (ret, w) := ext x .exec w
  (ret, if a = 0 then ext' x .warn w else w)

/-- monitor_real_execve, fork.c:632-647. -/
def realExecve (x : Env) (nullArg : Bool) (w : W) : Int × W :=
  let w := dbg x (ext' x .init w)
  if nullArg then (-1, (dbg x w).set EACCES)
  else ext x .exec (ext' x .copyEnv w)

/-- The loop around waitpid, fork.c:585-590: the status; `none`: more than `fuel` calls. -/
def waitLoop (x : Env) (status : Int) : Nat → W → Option (Int × W)
  | 0, _ => none
  | fuel + 1, w =>
    let (r, w) := ext x .waitpid w
    if r < 0 then
      if w.errno ≠ EINTR then some (-1, w) else waitLoop x status fuel w
    else some (status, w)

/-- The end of monitor_system, fork.c:592-601. -/
def systemEnd (x : Env) (callback : Bool) (status : Int) (w : W) : Int × W :=
  let w := ext' x .sigprocmask (ext' x .sigaction (ext' x .sigaction w))
  let w := if callback then ext' x .postFork (dbg x w) else w
  (status, dbg x w)

/-- monitor_system with a command, fork.c:527-602, in the parent; `status` is what waitpid stores.
`none`: still waiting.  A real fork that returns 0 is the child, which does not return. -/
def system (x : Env) (callback : Bool) (status : Int) (fuel : Nat) (w : W) : Option (Int × W) :=
  let w := dbg x (ext' x .init w)
  let w := if callback then ext' x .preFork (dbg x w) else w
  let w := ext' x .sigprocmask (ext' x .sigaction (ext' x .sigaction w))
  let (pid, w) := ext x .fork w
  if pid < 0 then some (systemEnd x callback (-1) (dbg x w))
  else if pid = 0 then none
  else (waitLoop x status fuel w).map fun (st, w) => systemEnd x callback st w

/-- monitor_sigwait_helper, pthread.c:1237-1294; true: wait again. -/
def helper (x : Env) (sig : Int) (saved : Nat) (w : W) : Bool × W :=
  if sig < 0 then (decide (saved = EINTR), w)
  else
    let (c, w) := ext x .test w
    if c ≠ 0 then (true, ext' x .finiThread (dbg x w))
    else
      let (h, w) := ext x .client w
      if h = 0 then (true, w)
      else
        let (m, w) := ext x .member w
        (decide (m = 0), w)

/-- The loop of pthread.c:1311-1315, 1342-1346, 1373-1377: result and saved errno. -/
def waitSig (x : Env) : Nat → W → Option (Int × Nat × W)
  | 0, _ => none
  | fuel + 1, w =>
    let (ret, w) := ext x .sigwaitinfo w
    let saved := w.errno
    let (again, w) := helper x ret saved w
    if again then waitSig x fuel w else some (ret, saved, w)

/-- sigwait, pthread.c:1297-1324: its return value. -/
def sigwait (x : Env) (fuel : Nat) (w : W) : Option (Int × W) :=
  (waitSig x fuel (dbg x (ext' x .init w))).map fun (ret, saved, w) =>
    if ret < 0 then ((saved : Int), w) else (0, w)

/-- sigwaitinfo and sigtimedwait, pthread.c:1327-1381. -/
def sigwaitinfo (x : Env) (fuel : Nat) (w : W) : Option (Int × W) :=
  (waitSig x fuel (dbg x (ext' x .init w))).map fun (ret, saved, w) => (ret, w.set saved)

/-- monitor_appl_sigaction, signal.c:809-862, and sigaction, 864-869; `act`: not NULL. -/
def sigaction (x : Env) (valid avoid act : Bool) (w : W) : Int × W :=
  let w := ext' x .init w
  if valid = false then (-1, (dbg x w).set EINVAL)
  else
    let w := dbg x w
    if avoid then ext x .sigaction w
    else (0, if act then ext' x .sigaction w else w)

/-- signal, signal.c:871-887; −1 stands for SIG_ERR, 0 for the old handler. -/
def signal (x : Env) (valid avoid : Bool) (w : W) : Int × W :=
  let (r, w) := sigaction x valid avoid true w
  if r = 0 then (0, w) else (-1, w.set EINVAL)

/-- sigprocmask, signal.c:892-908; `set`: not NULL. -/
def sigprocmask (x : Env) (set : Bool) (w : W) : Int × W :=
  let w := ext' x .init w
  ext x .sigprocmask (if set then dbg x w else w)

/-- What the application asked for, signal.c:220-271: ignore or a default action that ignores, a
default action that stops, a handler.  (Default actions that end the process: see Proc.) -/
inductive Act where
  | ignore | stop | handler
  deriving DecidableEq, Repr

/-- monitor_signal_handler, signal.c:195-273, for signals that do not end the process; `client`: the
client has a handler. -/
def signalHandler (x : Env) (valid client : Bool) (act : Act) (w : W) : W :=
  if valid = false then ext' x .warn w
  else
    let (r, w) := if client then ext x .client w else (1, w)
    if r = 0 then w
    else match act with
      | .ignore => w
      | .stop => ext' x .raise w
      | .handler => ext' x .handler w

/-- dlopen, dlopen.c:118-131; a failing call returns 0 (NULL). -/
def dlopen (x : Env) (w : W) : Int × W :=
  let w := ext' x .preDlopen (dbg x (ext' x .init w))
  let (h, w) := ext x .dlopen w
  (h, dbg x (ext' x .cbDlopen w))

/-- dlclose, dlopen.c:133-146. -/
def dlclose (x : Env) (w : W) : Int × W :=
  let w := ext' x .cbDlclose (dbg x (ext' x .init w))
  let (r, w) := ext x .dlclose w
  (r, dbg x (ext' x .postDlclose w))

end Libmonitor.Err
