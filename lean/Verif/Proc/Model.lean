/-!
# main.c, pthread.c and the process-level parts of fork.c and signal.c

One interleaving transition system.  A thread is a stack of frames: calls in progress, each with its
program counter and locals, innermost first.  Application code and client callbacks are
*foreign* frames: they may return, call any function of the library, end the thread
(pthread_exit, cancellation), and any thread may be interrupted at any point by a signal handler,
which is again foreign code.  The configuration is the dynamic one (LD_PRELOAD) with
threads, fork and signals.

Simplifications:
* memory is sequentially consistent; one step does the shared accesses named in its comment;
* pthread_t values are not reused; identifiers of threads and calls are natural numbers;
* the one-time initialisation of function pointers (monitor_early_init, monitor_normal_init,
  monitor_*_init) is done at the start; MONITOR_RUN_ONCE is one step;
* pthread_setspecific, pthread_key_create, pthread_setcancelstate do not fail; failure of
  malloc in monitor_make_thread_node ends the process (MONITOR_ERROR);
* pthread_atfork handlers are not modelled;
* the shootdown signal stays blocked in its own handler (SA_NODEFER is not set).
-/

namespace Libmonitor.Proc

/-- Threads, and client data. -/
scoped macro "Tid" : term => `(Nat)
scoped macro "Data" : term => `(Nat)

/-- MONITOR_IGNORE_NEW_THREAD, monitor.h:47: some value different from NULL (= 0). -/
def ignoreData : Data := 1

/-- A thread record: main's (main.c:155) or element `i` of the array number `arr`
(pthread.c:159-161; number 0 is the static array, others come from malloc). -/
inductive NodeId where
  | main
  | slot (arr i : Nat)
  deriving DecidableEq, Repr

/-- struct monitor_thread_node, pthread_h.h:55-74, without links (see Queue) and stack bottom.
`self = none` and `info = none` are the zero values.  `info` is the address of the local variable
`mti` of a call of pthread_create, i.e. the number of that call. -/
structure Node where
  magic : Bool := false
  tid : Int := 0
  self : Option Tid := none
  start : Nat := 0
  arg : Nat := 0
  data : Data := 0
  info : Option Nat := none
  isMain : Bool := false
  ignore : Bool := false
  appl : Bool := false
  finiS : Bool := false
  finiD : Bool := false
  exitWin : Bool := false
  block : Bool := false
  deriving DecidableEq, Repr

/-- The argument of the exit callbacks, monitor.h. -/
inductive How where
  | normal | exec | signal
  deriving DecidableEq, Repr

/-- The three ways through monitor_end_process_fcn. -/
inductive Way where
  | win | again | lose
  deriving DecidableEq, Repr

/-- Who delivers a fini-thread callback: the winner for itself, the shootdown handler, the
cleanup routine, the sigwait helper. -/
inductive Src where
  | winner | handler | cleanup | sigwait
  deriving DecidableEq, Repr

/-- Events, with the executing thread recorded beside them. -/
inductive Ev where
  | initLibrary | initLibraryRet | finiLibrary | finiLibraryRet
  | initProcess (d : Data) | initProcessRet (v : Data)
  | atMain | appMain
  | beginExit (how : How) | beginExitRet (how : How)
  | finiProcess (how : How) (d : Data) | finiProcessRet (how : How)
  /-- monitor_end_process_fcn returns -/
  | resume (how : How) (w : Way)
  /-- the real exit, _exit, exec, and the end by a signal; `hooked`: through the library's
  exit functions (not monitor_real_exit, not libc's exit after the last thread or inside err, not an
  exec of a file that does not look executable) -/
  | realExit (hooked : Bool) | realUExit (hooked : Bool) | realExec (hooked : Bool) | realRaise
  /-- pthread_create is entered (call number, start routine, argument), ..., returns -/
  | createCall (c : Nat) (st ar : Nat)
  | support | supportRet | preCreate (c : Nat) | preCreateRet (c : Nat) (d : Data)
  | postCreate (c : Nat) (d : Data) | createRet (c : Nat)
  /-- real pthread_create: succeeded (new thread, record, start routine, argument, value), failed,
  and for an ignored thread -/
  | spawn (c : Nat) (new : Tid) (n : NodeId) (st ar : Nat) (d : Data)
  | spawnFail (c : Nat) | spawnIgn (c : Nat) (new : Tid) (st ar : Nat)
  /-- the thread put itself on the list / was refused because of exit cleanup -/
  | linked (tid : Int) | refused
  | initThread (tid : Int) (d : Data) | initThreadRet (tid : Int) (v : Data)
  /-- the application's start routine is entered -/
  | start (st ar : Nat)
  | finiThread (tid : Int) (d : Data) (by_ : Src) | finiThreadRet (tid : Int)
  /-- exit cleanup begins; the winner stops waiting for the other threads -/
  | shootdown | gaveUp
  /-- pthread_kill; `none`: with the shootdown signal -/
  | kill (target : Option Tid) (sig : Option Nat)
  | brCall (sig : Nat) | brRet (sig : Nat) (ok : Bool)
  /-- a call of fork (its number); the real fork's result in the parent; fork returns -/
  | preFork (c : Nat) | preForkRet (c : Nat) (d : Data) | osFork (c : Nat) (ret : Int)
  | postFork (c : Nat) (ret : Int) (d : Data) | forkRet (c : Nat) (ret : Int)
  /-- the process is a new child from here on; `real`: made by monitor_real_fork -/
  | forked (real : Bool)
  /-- main's record was reset in the child of fork, of monitor_real_fork; its data now -/
  | childReset (d : Data) | realReset (d : Data)
  /-- results of monitor_get_thread_num, monitor_get_user_data, monitor_get_new_thread_info,
  monitor_is_threaded -/
  | gotNum (v : Int) | gotData (d : Data) | gotInfo (p : Option Nat) | gotThreaded (b : Bool)
  /-- monitor_disable_new_threads, monitor_enable_new_threads -/
  | ignoring (b : Bool)
  deriving DecidableEq, Repr

/-- Calls in progress. -/
inductive Frame where
  /-- foreign code: a signal handler of application or client -/
  | app
  /-- foreign: what runs in the main thread before main (constructors) -/
  | start
  | mainAt0
  /-- foreign: monitor_at_main -/
  | mainAt
  /-- foreign: the application's main -/
  | mainApp
  | xMain
  /-- inside a function of the C library that calls libc's exit -/
  | xErr
  /-- foreign: inside the real exit (atexit handlers) -/
  | realExit
  | realExit2
  /-- foreign: a thread that is past its cleanup routine (destructors of thread-specific data) -/
  | tdtor
  /-- an ignored thread: about to start, and (foreign) in its start routine -/
  | ign (st ar : Nat)
  | ignApp
  | bl0
  /-- foreign: monitor_init_library -/
  | blCb
  | bp0 (isFork : Bool) (d : Data)
  | bpReset (d : Data)
  | bpFlags (d : Data)
  | bpCall (d : Data)
  /-- foreign: monitor_init_process -/
  | bpCb
  | el0
  /-- foreign: monitor_fini_library -/
  | elCb
  | ep0 (how : How)
  | ep1 (how : How) (tn : Option NodeId)
  | ep2 (how : How) (tn : Option NodeId)
  /-- foreign: monitor_begin_process_exit -/
  | epBegin (how : How)
  | epFini0 (how : How)
  /-- foreign: monitor_fini_process -/
  | epFini (how : How)
  | epWait (how : How)
  | epDone (how : How) (w : Way)
  | xExit
  | xUExit
  | xUExit2 (hooked : Bool)
  | xExec
  | xExec2 (checked : Bool)
  | xSig (noraise : Bool)
  | xSig2 (noraise : Bool)
  | px0
  | px1
  | sd0
  | sd1
  | sd2
  | sd3
  | sdScan (my : Option NodeId) (todo : List NodeId) (unfinished unstarted : Nat)
  | sdKill (my : Option NodeId) (n : NodeId) (todo : List NodeId) (unfinished unstarted : Nat)
  | sdScan2 (my : Option NodeId) (n : NodeId) (todo : List NodeId) (unfinished unstarted : Nat)
  | sdDone (my : Option NodeId)
  | sdMy (my : Option NodeId)
  | fin0 (n : NodeId) (src : Src)
  /-- foreign: monitor_fini_thread -/
  | finCb (n : NodeId) (src : Src) (tid : Int)
  | h0
  | cl0 (n : NodeId)
  | sw0
  | ul0 (n : NodeId)
  | ul1 (n : NodeId)
  | bt0 (n : NodeId)
  | bt1 (n : NodeId)
  | bt2 (n : NodeId)
  | bt3 (n : NodeId)
  /-- foreign: monitor_init_thread -/
  | btInit (n : NodeId)
  | bt4 (n : NodeId)
  | bt5 (n : NodeId)
  /-- foreign: the application's start routine -/
  | btApp (n : NodeId)
  | pc0 (st ar : Nat)
  | pc1 (st ar : Nat)
  | pc2 (st ar : Nat)
  | pc3 (c : Nat) (my : Option NodeId) (st ar : Nat)
  | pc4 (c : Nat) (my : NodeId) (st ar : Nat)
  | pcSup0 (c : Nat) (my : NodeId) (st ar : Nat)
  | pcSup1 (c : Nat) (my : NodeId) (st ar : Nat)
  /-- foreign: monitor_init_thread_support -/
  | pcSup (c : Nat) (my : NodeId) (st ar : Nat)
  | pc5 (c : Nat) (my : NodeId) (st ar : Nat)
  /-- foreign: monitor_thread_pre_create -/
  | pcPre (c : Nat) (my : NodeId) (st ar : Nat)
  | mk0 (c : Nat) (my : NodeId) (st ar : Nat) (d : Data)
  | mk1 (c : Nat) (my : NodeId) (st ar : Nat) (d : Data)
  | pc6 (c : Nat) (my n : NodeId) (st ar : Nat) (d : Data)
  /-- foreign: monitor_reset_stacksize -/
  | pcStack (c : Nat) (my n : NodeId) (st ar : Nat) (d : Data)
  | pc7 (c : Nat) (my n : NodeId) (st ar : Nat) (d : Data)
  | pc8 (c : Nat) (my n : NodeId) (d : Data)
  /-- foreign: monitor_thread_post_create -/
  | pcPost (c : Nat) (my : NodeId)
  | pcIgn (c : Nat) (st ar : Nat)
  | br0 (sig : Nat)
  | br1 (sig : Nat) (todo : List NodeId)
  | brKill (sig : Nat) (n : NodeId) (todo : List NodeId)
  | br2 (sig : Nat)
  | fk0
  /-- foreign: monitor_pre_fork -/
  | fkPre (c : Nat)
  | fkReal (c : Nat) (d : Data)
  | fkPost0 (c : Nat) (ret : Int) (d : Data)
  /-- foreign: monitor_post_fork -/
  | fkPost (c : Nat) (ret : Int)
  | fkChild (c : Nat)
  | rf
  | rfReset
  | qNum
  | qData
  | qInfo
  | qThr
  | qBlock (b : Bool)
  | qIgnore (b : Bool)
  deriving DecidableEq, Repr

/-- Foreign code. -/
def Frame.foreign : Frame → Bool
  | .app | .start | .mainAt | .mainApp | .realExit | .tdtor | .ignApp | .blCb | .bpCb | .elCb
  | .epBegin _ | .epFini _ | .finCb .. | .btInit _ | .btApp _ | .pcSup .. | .pcPre ..
  | .pcStack .. | .pcPost .. | .fkPre _ | .fkPost .. => true
  | _ => false

/-- Frames of the shootdown handler (the signal is blocked while one is active). -/
def Frame.isH : Frame → Bool
  | .h0 | .fin0 _ .handler | .finCb _ .handler _ => true
  | _ => false

/-- Global variables: main.c:145-148, 258, the RUN_ONCE flag of main.c:230; pthread.c:157-182. -/
structure G where
  initCalled : Bool := false
  beginLibRun : Bool := false
  finiLibCalled : Bool := false
  finiProcDone : Bool := false
  cookie : Bool := false
  hasUsed : Bool := false
  supportDone : Bool := false
  inExit : Bool := false
  finiThreadDone : Bool := false
  /-- monitor_shootdown_handler is installed -/
  handlerOn : Bool := false
  lock : Bool := false
  num : Nat := 0
  list : List NodeId := []
  free : List NodeId := []
  /-- monitor_tn_array (its number), monitor_tn_array_pos, arrays allocated so far -/
  arr : Nat := 0
  pos : Nat := 0
  nArr : Nat := 0
  nodes : NodeId → Node := fun n =>
    match n with
    | .main => { magic := true, isMain := true }
    | .slot _ _ => {}
  /-- thread-specific data under monitor_pthread_key -/
  tsd : Tid → Option NodeId := fun _ => none
  nextTid : Tid := 1
  nextCall : Nat := 0
  dead : Bool := false
  /-- list operation on an element that is not where the code believes it is -/
  ub : Bool := false
  /-- history, latest event first; a child's history includes its parent's -/
  tr : List (Tid × Ev) := []

/-- MONITOR_TN_ARRAY_SIZE, pthread.c:86. -/
def arraySize : Nat := 600

def G.emit (g : G) (t : Tid) (e : Ev) : G := { g with tr := (t, e) :: g.tr }

def G.upd (g : G) (n : NodeId) (f : Node → Node) : G :=
  { g with nodes := fun m => if m = n then f (g.nodes m) else g.nodes m }

def G.main (g : G) : Node := g.nodes .main

/-- monitor_get_tn, pthread.c:222-238. -/
def getTn (g : G) (t : Tid) : Option NodeId :=
  if g.hasUsed then
    match g.tsd t with
    | some n => if (g.nodes n).magic then some n else none
    | none => none
  else some .main

/-- Main's record after pthread.c:335-348: the thread that called fork takes it over. -/
def resetMain (g : G) (t : Tid) : Node :=
  match getTn g t with
  | none => g.main
  | some n =>
    if n = .main then g.main
    else { magic := true, isMain := true, data := (g.nodes n).data }

/-- monitor_reset_thread_list, pthread.c:323-359. -/
def resetList (g : G) (t : Tid) : G :=
  if g.hasUsed then
    { g with nodes := fun m => if m = .main then resetMain g t else g.nodes m,
             list := [], free := [], pos := 0, tsd := fun _ => none, hasUsed := false }
  else g

/-- monitor_thread_list_init, pthread.c:280-314. -/
def listInit (g : G) (t : Tid) : G :=
  let g := g.upd .main (fun m => { m with self := some t })
  { g with list := [], free := [], pos := 0,
           tsd := fun u => if u = t then some .main else none }

/-- A chosen record, and the new values of the variables it was taken from. -/
structure Got where
  n : NodeId
  free : List NodeId
  arr : Nat
  pos : Nat
  nArr : Nat

/-- The choice of a record in monitor_make_thread_node, pthread.c:373-392; `none`: malloc failed. -/
def alloc (g : G) (ok : Bool) : Option Got :=
  match g.free with
  | n :: fs => some ⟨n, fs, g.arr, g.pos, g.nArr⟩
  | [] =>
    if g.pos < arraySize then some ⟨.slot g.arr g.pos, [], g.arr, g.pos + 1, g.nArr⟩
    else if ok then some ⟨.slot (g.nArr + 1) 0, [], g.nArr + 1, 1, g.nArr + 1⟩
    else none

/-- The test common to monitor_shootdown_handler (pthread.c:454-466) and
monitor_pthread_cleanup_routine (pthread.c:913-926): deliver fini-thread? -/
def mayFini (g : G) (n : NodeId) : Bool :=
  let m := g.nodes n
  m.magic && m.appl && !m.finiS && !m.block && !g.finiThreadDone

/-- What happens to the stack. -/
inductive Next where
  /-- replace the top frame -/
  | go (l : List Frame)
  /-- end the thread: pthread_exit -/
  | unwind
  /-- end the process -/
  | die
  deriving DecidableEq

/-- Result of a step: globals, stack, first frame of a new thread. -/
abbrev Res := G × Next × Option Frame

def cont (g : G) (l : List Frame) : Option Res := some (g, .go l, none)

/-- One step of the top frame.  For foreign frames: the code returns, with value `v`.
`ok` and `v` are the outcome of external calls. -/
def fstep (g : G) (t : Tid) (ok : Bool) (v : Nat) : Frame → Option Res
  | .app => cont g []
  -- main.c:503-517 (monitor_main up to monitor_begin_process_fcn)
  | .start => cont g [.bp0 false 0, .mainAt0]
  -- main.c:518
  | .mainAt0 => cont (g.emit t .atMain) [.mainAt]
  -- main.c:530
  | .mainAt => cont (g.emit t .appMain) [.mainApp]
  -- main.c:533
  | .mainApp => cont g [.ep0 .normal, .xMain]
  -- main.c:536: return to libc, which calls the real exit
  | .xMain => cont (g.emit t (.realExit true)) [.realExit]
  -- handlers done; libmonitor's destructor, main.c:651-656
  | .realExit => if ok then cont g [.el0, .realExit2] else some (g, .die, none)
  | .realExit2 => some (g, .die, none)
  -- the thread is gone; `ok = false`: it was the last one, libc calls exit
  | .tdtor => if ok then cont g [] else cont (g.emit t (.realExit false)) [.realExit]
  | .ign st ar => cont (g.emit t (.start st ar)) [.ignApp]
  | .ignApp => cont g [.tdtor]
  -- monitor_begin_library_fcn, main.c:227-238
  | .bl0 =>
    if g.beginLibRun then cont g []
    else cont ({ g with beginLibRun := true }.emit t .initLibrary) [.blCb]
  | .blCb => cont (g.emit t .initLibraryRet) []
  -- monitor_begin_process_fcn, main.c:255-285: the compare-and-swap
  | .bp0 isFork d =>
    if isFork then cont { g with initCalled := true } [.bpReset d]
    else if g.initCalled then cont g []
    else cont { g with initCalled := true } [.bpFlags d]
  -- main.c:268-269
  | .bpReset d =>
    cont (((resetList g t).upd .main (fun m => { m with data := d })).emit t (.childReset d))
      [.bpFlags d]
  -- main.c:277-280
  | .bpFlags d => cont { g with finiLibCalled := false, finiProcDone := false } [.bl0, .bpCall d]
  -- main.c:283-284
  | .bpCall d => cont (g.emit t (.initProcess d)) [.bpCb]
  | .bpCb => cont ((g.upd .main (fun m => { m with data := v })).emit t (.initProcessRet v)) []
  -- monitor_end_library_fcn, main.c:240-249
  | .el0 => if g.finiLibCalled then cont g [] else cont (g.emit t .finiLibrary) [.elCb]
  | .elCb => cont ({ g with finiLibCalled := true }.emit t .finiLibraryRet) []
  -- monitor_end_process_fcn, main.c:303
  | .ep0 how => cont g [.ep1 how (getTn g t)]
  -- main.c:306-307, 323, 331
  | .ep1 how tn =>
    if g.cookie then
      match tn with
      | some n => if (g.nodes n).exitWin then cont g [.epDone how .again] else cont g [.epWait how]
      | none => cont g [.epWait how]
    else cont { g with cookie := true } [.ep2 how tn]
  -- main.c:312-316
  | .ep2 how tn =>
    match tn with
    | some n =>
      cont ((g.upd n (fun m => { m with exitWin := true })).emit t (.beginExit how))
        [.epBegin how]
    | none => cont (g.emit t (.beginExit how)) [.epBegin how]
  -- main.c:318
  | .epBegin how => cont (g.emit t (.beginExitRet how)) [.sd0, .epFini0 how]
  -- main.c:321
  | .epFini0 how => cont (g.emit t (.finiProcess how g.main.data)) [.epFini how]
  | .epFini how => cont (g.emit t (.finiProcessRet how)) [.epDone how .win]
  -- main.c:336-339
  | .epWait how => if g.finiProcDone then cont g [.epDone how .lose] else none
  -- main.c:342
  | .epDone how w => cont ({ g with finiProcDone := true }.emit t (.resume how w)) []
  -- err, errx, error: libc's exit is reached without the override of exit
  | .xErr => cont (g.emit t (.realExit false)) [.realExit]
  -- main.c:597
  | .xExit => cont (g.emit t (.realExit true)) [.realExit]
  -- main.c:615-617, 631-633
  | .xUExit => cont g [.el0, .xUExit2 true]
  | .xUExit2 hooked => some (g.emit t (.realUExit hooked), .die, none)
  -- fork.c:368-377, 397-406, 426-435
  | .xExec => cont g [.el0, .xExec2 true]
  | .xExec2 checked =>
    if ok then some (g.emit t (.realExec checked), .die, none)
    else cont (g.emit t (.realExec checked)) []
  -- signal.c:253-264
  | .xSig nr => cont g [.el0, .xSig2 nr]
  | .xSig2 nr =>
    if nr then cont (g.emit t .realRaise) [] else some (g.emit t .realRaise, .die, none)
  -- pthread_exit, pthread.c:1184-1196
  | .px0 =>
    match getTn g t with
    | some n => if (g.nodes n).isMain then cont g [.ep0 .normal, .px1] else some (g, .unwind, none)
    | none => some (g, .unwind, none)
  | .px1 => some (g, .unwind, none)
  -- monitor_thread_shootdown, pthread.c:522
  | .sd0 => if g.hasUsed then cont g [.sd1] else cont g []
  -- pthread.c:529-531
  | .sd1 => if g.lock then none else cont { g with lock := true } [.sd2]
  | .sd2 => cont ({ g with inExit := true, lock := false }.emit t .shootdown) [.sd3]
  -- pthread.c:538-560: install the handler, put main on the list
  | .sd3 =>
    if g.main.self = some t then
      cont { g with handlerOn := true } [.sdScan none g.list 0 0]
    else
      let g := g.upd .main (fun m => { m with appl := true, finiS := false, finiD := false })
      cont { g with handlerOn := true, list := .main :: g.list }
        [.sdScan none (.main :: g.list) 0 0]
  -- pthread.c:579-600: one element; the list does not change any more (C16).
  -- At the end, pthread.c:603-617: the clock decides whether the timeout is over (see Shoot): `ok`
  | .sdScan my todo unf unst =>
    match todo with
    | n :: todo =>
      if (g.nodes n).self = some t then cont g [.sdScan (some n) todo unf unst]
      else if (g.nodes n).appl then
        if (g.nodes n).finiS then cont g [.sdScan2 my n todo unf unst]
        else cont g [.sdKill my n todo unf unst]
      else cont g [.sdScan my todo unf unst]
    | [] =>
      if unf = 0 then cont g [.sdDone my]
      else if ok && decide (0 < unst) then cont (g.emit t .gaveUp) [.sdDone my]
      else cont g [.sdScan my g.list 0 0]
  -- pthread.c:592-593
  | .sdKill my n todo unf unst =>
    cont (g.emit t (.kill (g.nodes n).self none)) [.sdScan2 my n todo unf (unst + 1)]
  -- pthread.c:595-598
  | .sdScan2 my n todo unf unst =>
    cont g [.sdScan my todo (if (g.nodes n).finiD then unf else unf + 1) unst]
  -- pthread.c:619
  | .sdDone my => cont { g with finiThreadDone := true } [.sdMy my]
  -- pthread.c:624
  | .sdMy my =>
    match my with
    | none => cont g []
    | some n => if (g.nodes n).finiS then cont g [] else cont g [.fin0 n .winner]
  -- pthread.c:469-472, 625-628, 928-931, 1260-1263
  | .fin0 n src =>
    cont ((g.upd n (fun m => { m with finiS := true })).emit t
        (.finiThread (g.nodes n).tid (g.nodes n).data src)) [.finCb n src (g.nodes n).tid]
  -- pthread.c:473, 629, 932, 1264
  | .finCb n src tid =>
    cont ((g.upd n (fun m => { m with finiD := true })).emit t (.finiThreadRet tid))
      (if src = .cleanup then [.ul0 n] else [])
  -- monitor_shootdown_handler, pthread.c:447-466
  | .h0 =>
    match g.tsd t with
    | none => cont g []
    | some n => if mayFini g n then cont g [.fin0 n .handler] else cont g []
  -- monitor_pthread_cleanup_routine, pthread.c:903-926
  | .cl0 n => if mayFini g n then cont g [.fin0 n .cleanup] else cont g []
  -- monitor_sigwait_helper, pthread.c:1247-1255, for the shootdown signal
  | .sw0 =>
    match getTn g t with
    | none => cont g []
    | some n => if g.inExit && mayFini g n then cont g [.fin0 n .sigwait] else cont g []
  -- monitor_unlink_thread_node, pthread.c:422-439
  | .ul0 n => if g.lock then none else cont { g with lock := true } [.ul1 n]
  | .ul1 n =>
    if g.inExit then
      cont { g.upd n (fun m => { m with finiS := true, finiD := true }) with lock := false } []
    else if n ∈ g.list then
      let g := g.upd n (fun _ => {})
      cont { g with list := g.list.erase n, free := n :: g.free, lock := false } []
    else some ({ g with ub := true }, .die, none)
  -- monitor_begin_thread, pthread.c:968-974
  | .bt0 n =>
    let g := g.upd n (fun m => { m with self := some t })
    cont { g with tsd := fun u => if u = t then some n else g.tsd u } [.bt1 n]
  -- monitor_link_thread_node, pthread.c:406-420
  | .bt1 n => if g.lock then none else cont { g with lock := true } [.bt2 n]
  | .bt2 n =>
    if g.inExit then cont ({ g with lock := false }.emit t .refused) [.tdtor]
    else if n ∈ g.list then some ({ g with ub := true }, .die, none)
    else
      let g := g.upd n (fun m => { m with tid := ((g.num + 1 : Nat) : Int) })
      cont ({ g with num := g.num + 1, list := n :: g.list, lock := false }.emit t
        (.linked ((g.num + 1 : Nat) : Int))) [.bt3 n]
  -- pthread.c:981-987
  | .bt3 n => cont (g.emit t (.initThread (g.nodes n).tid (g.nodes n).data)) [.btInit n]
  | .btInit n =>
    cont ((g.upd n (fun m => { m with data := v })).emit t (.initThreadRet (g.nodes n).tid v))
      [.bt4 n]
  -- pthread.c:989
  | .bt4 n => cont (g.upd n (fun m => { m with appl := true })) [.bt5 n]
  -- pthread.c:991
  | .bt5 n => cont (g.emit t (.start (g.nodes n).start (g.nodes n).arg)) [.btApp n]
  -- pthread.c:994
  | .btApp n => cont g [.cl0 n, .tdtor]
  -- pthread_create, pthread.c:1076-1079
  | .pc0 st ar => if g.hasUsed then cont g [.pc2 st ar] else cont (listInit g t) [.pc1 st ar]
  | .pc1 st ar => cont { g with hasUsed := true } [.pc2 st ar]
  -- pthread.c:1086-1098
  | .pc2 st ar =>
    let c := g.nextCall
    let g := g.emit t (.createCall c st ar)
    match getTn g t with
    | some m =>
      cont { g.upd m (fun x => { x with info := some c }) with nextCall := c + 1 }
        [.bp0 false 0, .pc3 c (some m) st ar]
    | none => cont { g with nextCall := c + 1 } [.bp0 false 0, .pc3 c none st ar]
  -- pthread.c:1105
  | .pc3 c my st ar =>
    match my with
    | none => cont g [.pcIgn c st ar]
    | some m => if (g.nodes m).ignore then cont g [.pcIgn c st ar] else cont g [.pc4 c m st ar]
  -- pthread.c:1114-1118
  | .pc4 c my st ar =>
    if g.supportDone then cont g [.pc5 c my st ar] else cont g [.pcSup0 c my st ar]
  | .pcSup0 c my st ar => cont { g with supportDone := true } [.pcSup1 c my st ar]
  | .pcSup1 c my st ar => cont (g.emit t .support) [.pcSup c my st ar]
  | .pcSup c my st ar => cont (g.emit t .supportRet) [.pc5 c my st ar]
  -- pthread.c:1127
  | .pc5 c my st ar => cont (g.emit t (.preCreate c)) [.pcPre c my st ar]
  -- pthread.c:1132
  | .pcPre c my st ar =>
    let g := g.emit t (.preCreateRet c v)
    if v = ignoreData then cont g [.pcIgn c st ar] else cont g [.mk0 c my st ar v]
  -- monitor_make_thread_node, pthread.c:365-400
  | .mk0 c my st ar d => if g.lock then none else cont { g with lock := true } [.mk1 c my st ar d]
  | .mk1 c my st ar d =>
    match alloc g ok with
    | none => some (g, .die, none)
    | some a =>
      cont { g.upd a.n (fun _ => { magic := true, tid := -1 }) with
               free := a.free, arr := a.arr, pos := a.pos, nArr := a.nArr, lock := false }
        [.pc6 c my a.n st ar d]
  -- pthread.c:1138-1140
  | .pc6 c my n st ar d =>
    cont (g.upd n (fun m => { m with start := st, arg := ar, data := d }))
      [.pcStack c my n st ar d]
  -- pthread.c:1148 (see Attr)
  | .pcStack c my n st ar d => cont g [.pc7 c my n st ar d]
  -- pthread.c:1153-1154
  | .pc7 c my n st ar d =>
    if ok then
      some ({ g with nextTid := g.nextTid + 1 }.emit t (.spawn c g.nextTid n st ar d),
        .go [.pc8 c my n d], some (.bt0 n))
    else cont (g.emit t (.spawnFail c)) [.pc8 c my n d]
  -- pthread.c:1169
  | .pc8 c my n _ => cont (g.emit t (.postCreate c (g.nodes n).data)) [.pcPost c my]
  -- pthread.c:1172-1176
  | .pcPost c my =>
    cont ((g.upd my (fun m => { m with info := none })).emit t (.createRet c)) []
  -- pthread.c:1107, 1134
  | .pcIgn c st ar =>
    if ok then
      some (({ g with nextTid := g.nextTid + 1 }.emit t (.spawnIgn c g.nextTid st ar)).emit t
        (.createRet c), .go [], some (.ign st ar))
    else cont (g.emit t (.createRet c)) []
  -- monitor_broadcast_signal, pthread.c:770-775
  | .br0 sig =>
    let g := g.emit t (.brCall sig)
    if g.hasUsed then
      if g.lock then cont (g.emit t (.brRet sig false)) []
      else cont { g with lock := true } [.br1 sig g.list]
    else cont (g.emit t (.brRet sig true)) []
  -- pthread.c:777-789
  | .br1 sig todo =>
    match todo with
    | n :: todo =>
      if (g.nodes n).self ≠ some t ∧ (g.nodes n).appl = true ∧ (g.nodes n).finiS = false then
        cont g [.brKill sig n todo]
      else cont g [.br1 sig todo]
    | [] =>
      if g.main.self ≠ some t then cont (g.emit t (.kill g.main.self (some sig))) [.br2 sig]
      else cont g [.br2 sig]
  -- pthread.c:783
  | .brKill sig n todo =>
    cont (g.emit t (.kill (g.nodes n).self (some sig))) [.br1 sig todo]
  -- pthread.c:791-792
  | .br2 sig => cont ({ g with lock := false }.emit t (.brRet sig true)) []
  -- monitor_fork, fork.c:306-333 (parent side)
  | .fk0 => cont ({ g with nextCall := g.nextCall + 1 }.emit t (.preFork g.nextCall))
      [.fkPre g.nextCall]
  | .fkPre c => cont (g.emit t (.preForkRet c v)) [.fkReal c v]
  | .fkReal c d =>
    let ret : Int := if ok then ((v + 1 : Nat) : Int) else -1
    cont (g.emit t (.osFork c ret)) [.fkPost0 c ret d]
  | .fkPost0 c ret d => cont (g.emit t (.postFork c ret d)) [.fkPost c ret]
  | .fkPost c ret => cont (g.emit t (.forkRet c ret)) []
  -- the child, after monitor_begin_process_fcn
  | .fkChild c => cont (g.emit t (.forkRet c 0)) []
  -- monitor_real_fork, main.c:462-479 (parent side, and the child's reset)
  | .rf => cont g []
  | .rfReset =>
    cont ((resetList g t).emit t (.realReset (resetList g t).main.data)) []
  -- pthread.c:654-677, 868-891, 802-859
  | .qNum =>
    cont (g.emit t (.gotNum (match getTn g t with | none => -1 | some n => (g.nodes n).tid))) []
  | .qData =>
    cont (g.emit t (.gotData (match getTn g t with | none => 0 | some n => (g.nodes n).data))) []
  | .qInfo =>
    cont (g.emit t (.gotInfo (match getTn g t with | none => none | some n => (g.nodes n).info)))
      []
  -- pthread.c:645-648
  | .qThr => cont (g.emit t (.gotThreaded g.hasUsed)) []
  | .qBlock b =>
    match getTn g t with
    | none => cont g []
    | some n => cont (g.upd n (fun m => { m with block := b })) []
  | .qIgnore b =>
    match getTn g t with
    | none => cont (g.emit t (.ignoring b)) []
    | some n => cont ((g.upd n (fun m => { m with ignore := b })).emit t (.ignoring b)) []

/-- Functions of the library that foreign code may call. -/
inductive Api where
  /-- library constructor, main.c:643-649 -/
  | ctor
  /-- monitor_initialize, main.c:422-426 -/
  | initialize
  | exit | uexit
  /-- monitor_real_exit, main.c:433-438 -/
  | realUExit
  /-- a function of the C library that calls libc's exit (err, errx, error).  In programs with a
  shared C library it does not get to the override of exit; in statically linked ones it does, and
  is `exit`.  This is also what MONITOR_ERROR does (common.h:108-113), so a failure of
  pthread_key_create, pthread_setspecific, sigaction, malloc or dlsym at some place of the library
  (pthread.c:300, 312, 388, 545, 973; common.c:99-107) is an `interrupt` there and this call. -/
  | err
  /-- exec*; `checked`: the file looks executable -/
  | exec (checked : Bool)
  /-- a signal whose default action ends the process, signal.c:251-266 -/
  | fatal (noraise : Bool)
  | pthreadExit
  | create (st ar : Nat)
  | fork | realFork
  | broadcast (sig : Nat)
  | sigwait
  | num | data | info | threaded | block (b : Bool) | ignore (b : Bool)
  deriving DecidableEq, Repr

def Api.frames : Api → List Frame
  | .ctor => [.bl0]
  | .initialize => [.bp0 false 0]
  | .exit => [.ep0 .normal, .xExit]
  | .uexit => [.ep0 .normal, .xUExit]
  | .realUExit => [.xUExit2 false]
  | .err => [.xErr]
  | .exec checked => if checked then [.ep0 .exec, .xExec] else [.xExec2 false]
  | .fatal nr => [.ep0 .signal, .xSig nr]
  | .pthreadExit => [.px0]
  | .create st ar => [.pc0 st ar]
  | .fork => [.fk0]
  | .realFork => [.rf]
  | .broadcast sig => [.br0 sig]
  | .sigwait => [.sw0]
  | .num => [.qNum]
  | .data => [.qData]
  | .info => [.qInfo]
  | .threaded => [.qThr]
  | .block b => [.qBlock b]
  | .ignore b => [.qIgnore b]

/-- What a thread does next. -/
inductive Inp where
  /-- the innermost call goes on (foreign code returns `v`) -/
  | go (ok : Bool) (v : Nat)
  | call (a : Api)
  /-- foreign code ends the thread: pthread_exit in the C library, or cancellation -/
  | unwind
  /-- the shootdown signal arrives -/
  | deliver
  /-- another signal arrives, for which application or client have a handler -/
  | interrupt
  deriving DecidableEq, Repr

/-- What is left of a stack when the thread ends: the cleanup routine, if it is pushed
(pthread.c:977-994), then the destructors. -/
def unwound (l : List Frame) : List Frame :=
  match l.getLast? with
  | some (.bt3 n) | some (.btInit n) | some (.bt4 n) | some (.bt5 n) | some (.btApp n) =>
    [.cl0 n, .tdtor]
  | _ => [.tdtor]

structure S where
  g : G := {}
  th : Tid → List Frame := fun t => if t = 0 then [.start] else []

def setTh (th : Tid → List Frame) (t : Tid) (l : List Frame) : Tid → List Frame :=
  fun u => if u = t then l else th u

/-- Effect of a frame step on the stacks. -/
def applyRes (s : S) (t : Tid) (rest : List Frame) : Res → S
  | (g, nx, sp) =>
    let th := match sp with
      | some f => setTh s.th s.g.nextTid [f]
      | none => s.th
    match nx with
    | .go l => { g := g, th := setTh th t (l ++ rest) }
    | .unwind => { g := g, th := setTh th t (unwound rest) }
    | .die => { g := { g with dead := true }, th := th }

/-- One step of thread `t`. -/
def step (s : S) (t : Tid) (i : Inp) : Option S :=
  if s.g.dead then none
  else
    match s.th t with
    | [] => none
    | f :: rest =>
      match i with
      | .go ok v => (fstep s.g t ok v f).map (applyRes s t rest)
      | .call a =>
        if f.foreign then some { s with th := setTh s.th t (a.frames ++ f :: rest) } else none
      | .unwind =>
        if f.foreign then some { s with th := setTh s.th t (unwound (f :: rest)) } else none
      | .deliver =>
        if s.g.handlerOn && !(f :: rest).any Frame.isH then
          some { s with th := setTh s.th t (.h0 :: f :: rest) }
        else none
      | .interrupt => some { s with th := setTh s.th t (.app :: f :: rest) }

/-- The child process at the moment the real fork returns 0 in it (fork.c:315, 326-330;
main.c:469-473): a copy of the memory, with the calling thread only. -/
def child (s : S) (t : Tid) : Option S :=
  if s.g.dead then none
  else
    match s.th t with
    | .fkReal c d :: rest =>
      some { g := s.g.emit t (.forked false),
             th := setTh (fun _ => []) t (.bp0 true d :: .fkChild c :: rest) }
    | .rf :: rest =>
      some { g := s.g.emit t (.forked true), th := setTh (fun _ => []) t (.rfReset :: rest) }
    | _ => none

/-- Labels: a step, or going on as the child. -/
inductive Lbl where
  | step (t : Tid) (i : Inp)
  | fork (t : Tid)
  deriving DecidableEq, Repr

def next (s : S) : Lbl → Option S
  | .step t i => step s t i
  | .fork t => child s t

/-- Reachable process states, for executions whose labels satisfy `A`. -/
inductive ReachA (A : S → Lbl → Prop) : S → Prop
  | init : ReachA A {}
  | next {s s' : S} {l : Lbl} : ReachA A s → A s l → next s l = some s' → ReachA A s'

/-- Reachable process states. -/
def Reach : S → Prop := ReachA (fun _ _ => True)

/-- Running a schedule. -/
def run : S → List Lbl → Option S
  | s, [] => some s
  | s, l :: ls => (next s l).bind (fun s' => run s' ls)

end Libmonitor.Proc
