/-!
# Names: looking up the real functions and calling them

libmonitor calls the functions it overrides through static function pointers that start as `NULL`
and are filled in by initialisation functions.  Which initialisation function runs, and when,
depends on the order in which the application, its libraries, the client and the kernel enter the
library.  This model keeps of every function only

* the pointers it fills in and the pointers it calls through,
* the other library functions it calls, with the "run once" guards,
* the points where it hands control to code outside (callbacks, the application),
* the creation of threads and the flag `monitor_has_used_threads`.

Simplifications: the dynamic build with `MONITOR_USE_SIGNALS` and `MONITOR_USE_FORK`, and with
`pthread_equal` and `pthread_cleanup_push` as functions; a pointer is either null or not; a
conditional whose condition is not about these things may go either way, and a loop may run any
number of times (`Ins.opt` stands for both, and alternatives are put one after the other); the MPI files, where every override fills in its one
pointer itself right before the callbacks, are left out; a library function whose real function
never returns (`exit`, `exec`) may return.
-/

namespace Libmonitor.Names

/-- The static function pointers, by file: `m` main.c:134-139, `f` fork.c:102-109, `t`
pthread.c:149-169, `s` signal.c:77-78, `d` dlopen.c:70-71.  `mMain` is `real_main`. -/
inductive Ptr where
  | mMain | mStart | mExit | mUExit | mMask | mFork
  | fFork | fExecv | fExecvp | fExecve | fAction | fMask | fSystem | fMalloc
  | tCreate | tAttrInit | tAttrDestroy | tAttrGet | tAttrSet | tEqual | tExit | tKeyNew | tKeyDel
  | tKill | tSelf | tGet | tSet | tPush | tPop | tCancel | tAction | tMask | tWait | tTimed
  | tMalloc
  | sAction | sMask
  | dOpen | dClose
  deriving DecidableEq, Repr

/-- The library functions (and, with a `2` or another suffix, conditional parts of them). -/
inductive Fn where
  | getspec | getTn | debug
  | earlyInit | forkInit | signalInit | nameInit | normalInit | dlopenInit
  | beginLibrary | endLibrary | callFini | beginProcess | beginProcess2 | endProcess | endProcess2
  | resetList | resetList2 | listInit | createInit
  | shootdown | shootdown2 | shootKill | finiSelf | shootHandler | sigHandler | sigFatal
  | foreignCode
  | startMain | monitorMain | exitW | uExitW | constructor | destructor
  | initClient | realExit | realMask | realFork
  | forkW | execvW | execvpW | execveW | execlW | execlpW | execleW | growArgs | endForExec
  | monSystem | systemPre | systemRun | systemChild | systemW | systemReal | realExecve
  | realSystem
  | createW | createMon | makeNode | mallocNode | attrDefault | adjust | attrSet | attrDestroy
  | beginThread | threadRun | cleanup
  | getData | broadcast | broadcast2 | killOne
  | pthreadExit | pthreadMask | realPMask | filterMask | filterSet
  | sigwaitW | sigtimedW | waitAgain | timedAgain | waitHelper | waitFini | sigwaitHandler
  | realAbort | clientAction | actionSet | actionW | maskW
  | dlopenW | dlcloseW | realDlopen | realDlclose
  deriving DecidableEq, Repr

/-- The steps of a function. -/
inductive Ins where
  /-- `MONITOR_REQUIRE_DLSYM` (common.h:127-131): fill in the pointer if it is null. -/
  | res (p : Ptr)
  /-- call through the pointer -/
  | use (p : Ptr)
  /-- call a library function -/
  | call (f : Fn)
  /-- a conditional part, or the body of a loop -/
  | opt (f : Fn)
  /-- a part run if `monitor_has_used_threads` -/
  | ifUsed (f : Fn)
  /-- a part run if `! monitor_has_used_threads` -/
  | ifUnused (f : Fn)
  /-- `monitor_has_used_threads = b` -/
  | setUsed (b : Bool)
  /-- the shootdown handler is installed -/
  | setHand
  /-- control passes to the client or the application -/
  | cb
  /-- a new thread starts in the function -/
  | spawn (f : Fn)
  deriving DecidableEq, Repr

open Ins Ptr Fn

/-- The `MONITOR_DEBUG`, `MONITOR_WARN` and `MONITOR_ERROR` macros ask for the thread number
(common.h:88-114). -/
def dbg : Ins := opt debug

/-- Look up the pointers one after the other; `monitor_dlsym` ends with debug output
(common.c:111). -/
def look : List Ptr → List Ins
  | [] => []
  | p :: ps => res p :: dbg :: look ps

/-- What each function does. -/
def body : Fn → List Ins
  /- monitor_get_tn, pthread.c:222-238 -/
  | getTn => [ifUsed getspec]
  | getspec => [use tGet]
  | debug => [call getTn]
  /- monitor_early_init, main.c:168-183 -/
  | earlyInit => [dbg]
  /- monitor_fork_init, fork.c:121-141 -/
  | forkInit => call earlyInit ::
      look [fFork, fExecv, fExecvp, fExecve, fAction, fMask, fSystem]
  /- monitor_signal_init, signal.c:282-360 (the loop over the signals calls real_sigaction) -/
  | signalInit => look [sAction, sMask] ++ [dbg, use sAction, dbg]
  /- monitor_thread_name_init, pthread.c:240-273 -/
  | nameInit => look [tCreate, tAttrInit, tAttrDestroy, tAttrGet, tAttrSet, tEqual, tKeyNew,
      tKeyDel, tKill, tSelf, tGet, tSet, tPush, tPop, tCancel, tAction, tMask, tWait, tTimed]
  /- monitor_normal_init, main.c:189-219 -/
  | normalInit => [call earlyInit, dbg] ++ look [mUExit, mExit, mStart] ++ [call forkInit] ++
      look [mMask] ++ [call signalInit]
  /- monitor_dlopen_init, dlopen.c:79-90 -/
  | dlopenInit => look [dOpen, dClose]
  /- monitor_begin_library_fcn, main.c:227-238 -/
  | beginLibrary => [dbg, call normalInit, dbg, cb]
  /- monitor_end_library_fcn, main.c:240-249 -/
  | endLibrary => [opt callFini]
  | callFini => [dbg, cb]
  /- monitor_begin_process_fcn, main.c:255-286 -/
  | beginProcess => [call normalInit, opt resetList, opt beginProcess2]
  | beginProcess2 => [call beginLibrary, dbg, cb]
  /- monitor_end_process_fcn, main.c:300-343 -/
  | endProcess => [call getTn, opt endProcess2, dbg]
  | endProcess2 => [dbg, cb, call shootdown, dbg, cb]
  /- monitor_reset_thread_list, pthread.c:322-359 -/
  | resetList => [ifUsed resetList2]
  | resetList2 => [dbg, call getTn, dbg, use tKeyDel, dbg, setUsed false]
  /- monitor_thread_list_init, pthread.c:280-314 -/
  | listInit => [call earlyInit, call nameInit, dbg, use tKeyNew, dbg, use tSelf, use tSet, dbg]
  /- pthread.c:1076-1079 -/
  | createInit => [call listInit, setUsed true]
  /- monitor_thread_shootdown, pthread.c:509-633 -/
  | shootdown => [ifUsed shootdown2, dbg]
  | shootdown2 => [use tCancel, dbg, opt signalInit, dbg, use tAction, setHand, dbg, use tSelf,
      use tEqual, opt shootKill, dbg, opt finiSelf, use tCancel]
  | shootKill => [use tEqual, use tKill]
  | finiSelf => [dbg, cb]
  /- monitor_shootdown_handler, pthread.c:441-475 -/
  | shootHandler => [use tGet, dbg, opt waitFini]
  /- monitor_signal_handler, signal.c:194-276 -/
  | sigHandler => [dbg, opt foreignCode, opt sigFatal, opt foreignCode]
  | sigFatal => [call endProcess, call endLibrary, use sAction, use sMask]
  | foreignCode => [cb]
  /- __libc_start_main, main.c:553-582; real_start_main calls monitor_main -/
  | startMain => [dbg] ++ look [mStart] ++ [res mMain, cb, use mStart, call monitorMain]
  /- monitor_main, main.c:503-536; the call of real_main is a call of foreign code -/
  | monitorMain => [call normalInit, dbg, call beginProcess, cb, use mMain, cb, call endProcess]
  /- exit, main.c:590-601 -/
  | exitW => [call normalInit, dbg, call endProcess, use mExit]
  /- _exit and _Exit, main.c:607-637 -/
  | uExitW => [call normalInit, dbg, call endProcess, call endLibrary, use mUExit]
  /- the library constructor and destructor, main.c:644-656 -/
  | constructor => [dbg, call beginLibrary]
  | destructor => [dbg, call endLibrary]
  /- monitor_initialize, main.c:421-425 -/
  | initClient => [call beginProcess]
  /- monitor_real_exit, main.c:433-438 -/
  | realExit => [call normalInit, use mUExit]
  /- monitor_real_sigprocmask, main.c:446-452 -/
  | realMask => [call normalInit, use mMask]
  /- monitor_real_fork, main.c:462-480 -/
  | realFork => look [mFork] ++ [dbg, use mFork, opt resetList]
  /- monitor_fork, fork.c:306-333 -/
  | forkW => [call forkInit, dbg, cb, use fFork, dbg, opt foreignCode, opt beginProcess]
  /- monitor_execv, monitor_execvp, monitor_execve, fork.c:355-437 -/
  | execvW => [call forkInit, dbg, opt endForExec, use fExecv, dbg]
  | execvpW => [call forkInit, dbg, opt endForExec, use fExecvp, dbg]
  | execveW => [call forkInit, dbg, opt endForExec, use fExecve, dbg]
  | endForExec => [call endProcess, call endLibrary]
  /- execl, execlp, execle with monitor_copy_va_args, fork.c:211-242, 449-488 -/
  | execlW => [opt growArgs, call execvW]
  | execlpW => [opt growArgs, call execvpW]
  | execleW => [opt growArgs, call execveW]
  | growArgs => look [fMalloc] ++ [use fMalloc, dbg]
  /- monitor_system, fork.c:522-601 -/
  | monSystem => [call forkInit, dbg, opt systemRun, dbg]
  | systemRun => [opt systemPre, use fAction, use fMask, use fFork, dbg, opt systemChild,
      use fAction, use fMask, opt systemPre]
  | systemPre => [dbg, cb]
  | systemChild => [dbg, use fAction, use fMask, use fExecve, call realExit]
  /- system, fork.c:603-620 -/
  | systemW => [call forkInit, opt monSystem, opt systemReal]
  | systemReal => [dbg, use fSystem]
  /- monitor_real_execve, fork.c:632-647 -/
  | realExecve => [call forkInit, dbg, use fExecve]
  /- monitor_real_system, fork.c:652-656 -/
  | realSystem => [call monSystem]
  /- pthread_create, pthread.c:1058-1176 -/
  | createW => [dbg, ifUnused createInit, call getTn, call beginProcess, dbg, opt createMon,
      use tCreate, spawn foreignCode]
  | createMon => [opt foreignCode, dbg, cb, call makeNode, call adjust, dbg, use tCreate,
      spawn beginThread, opt attrSet, opt attrDestroy, dbg, cb]
  /- monitor_make_thread_node, pthread.c:365-401 -/
  | makeNode => [opt mallocNode]
  | mallocNode => look [tMalloc] ++ [use tMalloc, dbg]
  /- monitor_adjust_stack_size, pthread.c:1012-1053 -/
  | adjust => [opt attrDefault, use tAttrGet, dbg, cb, opt attrSet, dbg]
  | attrDefault => [use tAttrInit, dbg]
  | attrSet => [use tAttrSet, dbg]
  | attrDestroy => [use tAttrDestroy]
  /- monitor_begin_thread, pthread.c:942-998 -/
  | beginThread => [dbg, use tSelf, use tSet, dbg, opt threadRun]
  | threadRun => [use tPush, dbg, cb, cb, use tPop, call cleanup]
  /- monitor_pthread_cleanup_routine, pthread.c:903-936 -/
  | cleanup => [dbg, opt foreignCode, dbg]
  /- monitor_get_user_data and the other functions for the client that only look for the thread's
  record, pthread.c:655-717, 800-895 -/
  | getData => [call getTn, dbg]
  /- monitor_broadcast_signal, pthread.c:765-794 -/
  | broadcast => [ifUsed broadcast2]
  | broadcast2 => [use tSelf, opt killOne]
  | killOne => [use tEqual, use tKill]
  /- pthread_exit, pthread.c:1183-1200 -/
  | pthreadExit => [call getTn, dbg, opt endProcess] ++ look [tExit] ++ [use tExit]
  /- pthread_sigmask, pthread.c:1207-1224 -/
  | pthreadMask => [call signalInit, call nameInit, dbg, opt filterMask, use tMask]
  /- monitor_real_pthread_sigmask, pthread.c:748-754 -/
  | realPMask => [call nameInit, use tMask]
  /- monitor_remove_client_signals, signal.c:372-431 -/
  | filterMask => [dbg, opt filterSet, dbg]
  | filterSet => [use sMask, dbg]
  /- sigwait and sigwaitinfo, pthread.c:1297-1353 -/
  | sigwaitW => [call nameInit, dbg, call waitAgain, opt waitAgain]
  | waitAgain => [use tWait, call waitHelper]
  /- sigtimedwait, pthread.c:1352-1381 -/
  | sigtimedW => [call nameInit, dbg, call timedAgain, opt timedAgain]
  | timedAgain => [use tTimed, call waitHelper]
  /- monitor_sigwait_helper, pthread.c:1237-1295 -/
  | waitHelper => [call getTn, opt waitFini, call sigwaitHandler]
  | waitFini => [use tCancel, dbg, cb, use tCancel]
  /- monitor_sigwait_handler, signal.c:169-190 -/
  | sigwaitHandler => [call signalInit, opt foreignCode]
  /- monitor_real_abort, signal.c:780-796 -/
  | realAbort => [dbg] ++ look [sAction, sMask] ++ [use sAction, use sMask, dbg]
  /- monitor_sigaction, signal.c:746-773 -/
  | clientAction => [call signalInit, dbg, opt actionSet]
  | actionSet => [opt filterMask, use sAction]
  /- monitor_appl_sigaction, signal.c:810-862 (sigaction and signal) -/
  | actionW => [call signalInit, dbg, opt actionSet]
  /- sigprocmask, signal.c:892-908 -/
  | maskW => [call signalInit, opt filterMask, use sMask]
  /- dlopen, dlclose and the real ones, dlopen.c:101-146 -/
  | dlopenW => [call dlopenInit, dbg, cb, use dOpen, cb, dbg]
  | dlcloseW => [call dlopenInit, dbg, cb, use dClose, cb, dbg]
  | realDlopen => [call dlopenInit, use dOpen]
  | realDlclose => [call dlopenInit, use dClose]

/-- How a function is guarded. -/
inductive Kind where
  /-- runs at every call -/
  | plain
  /-- `MONITOR_RUN_ONCE` (common.h:161-164): the mark is set before the function runs -/
  | once
  /-- `init_done`: the mark is set after the function has run -/
  | guard
  deriving DecidableEq, Repr

/-- The guards: main.c:171, 192, 230; pthread.c:243; signal.c:291; fork.c:124-140;
dlopen.c:82-89. -/
def kind : Fn → Kind
  | earlyInit | normalInit | beginLibrary | nameInit | signalInit => .once
  | forkInit | dlopenInit => .guard
  | _ => .plain

/-- The functions that code outside the library can call: the overrides, the functions for the
client, the constructor and destructor. -/
def isEntry : Fn → Bool
  | startMain | exitW | uExitW | constructor | destructor | initClient | realExit | realMask
  | realFork | forkW | execvW | execvpW | execveW | execlW | execlpW | execleW | systemW
  | realExecve | realSystem | createW | getData | broadcast | pthreadExit | pthreadMask
  | realPMask | sigwaitW | sigtimedW | realAbort | clientAction | actionW | maskW | dlopenW
  | dlcloseW | realDlopen | realDlclose => true
  | _ => false

/-- What a thread is doing: a library function with the rest of its steps, or code outside. -/
inductive Fr where
  | lib (f : Fn) (l : List Ins)
  | out
  deriving DecidableEq, Repr

/-- The state of a process. -/
structure St where
  /-- the pointers that are not null -/
  res : Ptr → Bool := fun _ => false
  /-- the marks of the guarded functions -/
  ran : Fn → Bool := fun _ => false
  /-- monitor_has_used_threads -/
  used : Bool := false
  /-- the shootdown handler is installed -/
  hand : Bool := false
  /-- number of threads made so far, the first one included -/
  made : Nat := 1
  /-- the stacks of the threads; at the start the first thread is in code outside the library -/
  th : Nat → List Fr := fun t => if t = 0 then [.out] else []
  /-- a null pointer has been called -/
  bad : Bool := false

/-- Replace the stack of a thread. -/
def St.put (s : St) (t : Nat) (k : List Fr) : St :=
  { s with th := fun u => if u = t then k else s.th u }

/-- Set a pointer. -/
def St.fill (s : St) (p : Ptr) : St := { s with res := fun q => if q = p then true else s.res q }

/-- Set the mark of a function. -/
def St.mark (s : St) (f : Fn) : St := { s with ran := fun g => if g = f then true else s.ran g }

/-- Call a function: nothing happens if it is guarded and marked; a `MONITOR_RUN_ONCE` function is
marked before it runs. -/
def St.enter (s : St) (t : Nat) (f : Fn) (k : List Fr) : St :=
  match kind f with
  | .plain => s.put t (.lib f (body f) :: k)
  | .guard => if s.ran f then s.put t k else s.put t (.lib f (body f) :: k)
  | .once => if s.ran f then s.put t k else (s.mark f).put t (.lib f (body f) :: k)

/-- One step of a library function.  `b` decides the conditionals. -/
def St.exec (s : St) (t : Nat) (f : Fn) (i : Ins) (l : List Ins) (k : List Fr) (b : Bool) : St :=
  match i with
  | .res p => (s.fill p).put t (.lib f l :: k)
  | .use p => { s with bad := s.bad || !s.res p }.put t (.lib f l :: k)
  | .call g => s.enter t g (.lib f l :: k)
  | .opt g => if b then s.enter t g (.lib f (.opt g :: l) :: k) else s.put t (.lib f l :: k)
  | .ifUsed g => if s.used then s.enter t g (.lib f l :: k) else s.put t (.lib f l :: k)
  | .ifUnused g => if s.used then s.put t (.lib f l :: k) else s.enter t g (.lib f l :: k)
  | .setUsed b' => { s with used := b' }.put t (.lib f l :: k)
  | .setHand => { s with hand := true }.put t (.lib f l :: k)
  | .cb => s.put t (.out :: .lib f l :: k)
  | .spawn g => if b then { s.put t (.lib f l :: k) with made := s.made + 1 }.put s.made
      [.lib g (body g)] else s.put t (.lib f l :: k)

/-- What can happen next. -/
inductive Lbl where
  /-- thread `t` does its next step -/
  | go (t : Nat) (b : Bool)
  /-- code outside the library calls it -/
  | call (t : Nat) (f : Fn)
  /-- code outside returns -/
  | ret (t : Nat)
  /-- a signal handler of somebody else runs in the thread -/
  | interrupt (t : Nat)
  /-- `monitor_signal_handler` runs in the thread -/
  | signal (t : Nat)
  /-- `monitor_shootdown_handler` runs in the thread -/
  | shoot (t : Nat)
  /-- `n` frames are left by a long jump -/
  | unwind (t : Nat) (n : Nat)
  /-- the thread ends; its cleanup routine runs if `b` -/
  | die (t : Nat) (b : Bool)
  /-- a name is not found by `dlsym(RTLD_NEXT)`: `monitor_dlsym` goes through the loaded objects and
  opens them with `dlopen`, which is overridden (common.c:52-76, 83-110) -/
  | fallback (t : Nat)
  /-- become the child of a fork by thread `t` -/
  | fork (t : Nat)
  deriving DecidableEq, Repr

/-- The transition function. -/
def next (s : St) : Lbl → Option St
  | .go t b =>
    match s.th t with
    | .lib f (i :: l) :: k => some (s.exec t f i l k b)
    | .lib f [] :: k =>
      some (match kind f with
        | .guard => (s.mark f).put t k
        | _ => s.put t k)
    | _ => none
  | .call t f =>
    match s.th t with
    | .out :: k => if isEntry f then some (s.enter t f (.out :: k)) else none
    | _ => none
  | .ret t =>
    match s.th t with
    | .out :: k => some (s.put t k)
    | _ => none
  | .interrupt t => if s.th t = [] then none else some (s.put t (.out :: s.th t))
  | .signal t =>
    if s.th t = [] ∨ s.ran signalInit = false then none
    else some (s.put t (.lib sigHandler (body sigHandler) :: s.th t))
  | .shoot t =>
    if s.th t = [] ∨ s.hand = false then none
    else some (s.put t (.lib shootHandler (body shootHandler) :: s.th t))
  | .unwind t n =>
    match (s.th t).drop n with
    | .out :: k => some (s.put t (.out :: k))
    | _ => none
  | .die t b =>
    if s.th t = [] then none
    else some (s.put t (if b then [.lib cleanup (body cleanup)] else []))
  | .fallback t =>
    match s.th t with
    | .lib f (.res p :: l) :: k =>
      if s.res p then none
      else some (s.put t (.lib dlopenW (body dlopenW) :: .lib f (.res p :: l) :: k))
    | _ => none
  | .fork t =>
    if s.th t = [] then none else some { s with th := fun u => if u = t then s.th t else [] }

/-- The states of the executions all of whose steps satisfy `A`. -/
inductive ReachA (A : St → Lbl → Prop) : St → Prop where
  | init : ReachA A {}
  | step {s s' : St} {l : Lbl} : ReachA A s → A s l → next s l = some s' → ReachA A s'

/-- All executions. -/
abbrev Reach (s : St) : Prop := ReachA (fun _ _ => True) s

end Libmonitor.Names
