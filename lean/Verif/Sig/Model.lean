/-!
# Model of `src/signal.c`

Signal numbers are those of Linux.  A `sigset_t` is a predicate on signal numbers.  The
kernel is part of the state: its action table and one mask per thread.  `real_sigaction`
fails for numbers the kernel does not accept (`kernelOk`, e.g. 32 and 33 under glibc) and
for SIGKILL/SIGSTOP.  Debug output is left out.  The kernel silently drops SIGKILL and
SIGSTOP from masks; masks are not corrected for that here.
-/

namespace Libmonitor.Sig

abbrev Set := Nat → Bool

/-- `sa_handler`/`sa_sigaction`: default, ignore, or some function. -/
inductive H where
  | dfl
  | ign
  | fn (id : Nat)
  deriving DecidableEq, Repr

/-- `struct sigaction` as the application sees it. -/
structure Act where
  h : H
  flags : BitVec 32
  mask : Set

/-- What the kernel has installed: something from the application, `monitor_signal_handler`,
or `monitor_shootdown_handler` (pthread.c:441). -/
inductive KH where
  | app (h : H)
  | monitor
  | shootdown
  deriving DecidableEq, Repr

structure KAct where
  h : KH
  flags : BitVec 32
  mask : Set

def SA_SIGINFO : BitVec 32 := 0x00000004#32
def SA_RESTART : BitVec 32 := 0x10000000#32
def SA_RESETHAND : BitVec 32 := 0x80000000#32
def SA_ONSTACK : BitVec 32 := 0x08000000#32

/-- SAFLAGS_REQUIRED, SAFLAGS_FORBIDDEN (signal.c:64-65). -/
def required : BitVec 32 := SA_SIGINFO ||| SA_RESTART
def forbidden : BitVec 32 := SA_RESETHAND ||| SA_ONSTACK

/-- The lists of signal.c:100-135 (Linux numbers). -/
def avoidList : List Nat := [9, 19]
def notermList : List Nat := [17, 18, 23, 28]
def noraiseList : List Nat := [11, 7, 4]
def stopList : List Nat := [20, 21, 22]
def extraList : List Nat := [12, 10, 30, 23, 13]
/-- signal.c:144 (SIGWINCH). -/
def lastResort : Nat := 28

def avoid (s : Nat) : Bool := avoidList.contains s
def noterm (s : Nat) : Bool := notermList.contains s
def noraise (s : Nat) : Bool := noraiseList.contains s
def stop (s : Nat) : Bool := stopList.contains s

/-- Platform, configuration and environment. -/
structure Cfg where
  /-- MONITOR_NSIG -/
  nsig : Nat
  /-- numbers the C library lets one install a handler for -/
  kernelOk : Nat → Bool
  /-- MONITOR_CLIENT_SIGNALS_LIST (configure) -/
  openList : List Int
  /-- SIGRTMIN, SIGRTMAX -/
  rtmin : Nat
  rtmax : Nat
  /-- MONITOR_CONFIG_SHOOTDOWN_SIGNAL -/
  config : Int
  /-- the number in MONITOR_SHOOTDOWN_SIGNAL, if set and readable by sscanf("%d") -/
  env : Option Int

/-- `monitor_signal_array` field by field (signal.c:80-96), the statics, and the kernel.
`mse_kern_act.sa_sigaction` is always `monitor_signal_handler`, so `kern` has flags and mask
only.  mse_blocked is unused in the compiled code. -/
structure S where
  inited : Bool
  appl : Nat → Act
  kern : Nat → BitVec 32 × Set
  client : Nat → Option Nat
  invalid : Nat → Bool
  applHand : Nat → Bool
  keepOpen : Nat → Bool
  shoot : Int
  kernel : Nat → KAct
  masks : Nat → Set

def upd {α} (f : Nat → α) (k : Nat) (a : α) : Nat → α := fun s => if s = k then a else f s

def emptySet : Set := fun _ => false
def sigaddset (set : Set) (k : Nat) : Set := upd set k true
def sigdelset (set : Set) (k : Nat) : Set := upd set k false

/-- `real_sigaction(sig, act, ...)` with a non-NULL act: new kernel table or failure. -/
def realSigaction (c : Cfg) (kernel : Nat → KAct) (sig : Nat) (act : KAct) :
    Option (Nat → KAct) :=
  if 1 ≤ sig ∧ sig < c.nsig ∧ c.kernelOk sig ∧ ¬ avoid sig then some (upd kernel sig act) else none

/-- A `for (sig = 1; sig < MONITOR_NSIG; sig++)` loop. -/
def sigLoop {α} (c : Cfg) (f : α → Nat → α) (a : α) : α :=
  (List.range' 1 (c.nsig - 1)).foldl f a

/-! ## monitor_choose_shootdown_early (signal.c:438-527)

Undefined behaviour (a store past the table) is `none`. -/

/-- `monitor_shootdown_list[k] = sig; k++`: the entries stored so far. -/
def push (c : Cfg) (tbl : List Nat) (sig : Nat) : Option (List Nat) :=
  if tbl.length < c.nsig then some (tbl ++ [sig]) else none

/-- The realtime part (signal.c:455-466): `sig` runs over `n` numbers starting at `sig`. -/
def rtLoop (c : Cfg) (keepOpen : Nat → Bool) (sig : Nat) (n : Nat) (tbl : List Nat) :
    Option (List Nat) :=
  match n with
  | 0 => some tbl
  | n + 1 =>
    if sig < c.nsig ∧ ¬ avoid sig ∧ ¬ stop sig ∧ ¬ keepOpen sig then
      match push c tbl sig with
      | none => none
      | some tbl => rtLoop c keepOpen (sig + 1) n tbl
    else rtLoop c keepOpen (sig + 1) n tbl

/-- The extra list (signal.c:468-477). -/
def extraLoop (c : Cfg) (keepOpen : Nat → Bool) : List Nat → List Nat → Option (List Nat)
  | [], tbl => some tbl
  | sig :: rest, tbl =>
    if ¬ avoid sig ∧ ¬ stop sig ∧ ¬ keepOpen sig then
      match push c tbl sig with
      | none => none
      | some tbl => extraLoop c keepOpen rest tbl
    else extraLoop c keepOpen rest tbl

/-- The table: realtime signals `SIGRTMIN + 8 .. SIGRTMAX - 8`, the extra list, the last
resort and a terminator (signal.c:453-479). -/
def buildTable (c : Cfg) (keepOpen : Nat → Bool) : Option (List Nat) := do
  let tbl ← rtLoop c keepOpen (c.rtmin + 8) (c.rtmax + 1 - 8 - (c.rtmin + 8)) []
  let tbl ← extraLoop c keepOpen extraList tbl
  let tbl ← push c tbl lastResort
  -- the -1 terminator takes one more cell
  if tbl.length < c.nsig then some tbl else none

/-- Tests on a number from the environment (signal.c:487-491) or configure (504-507). At
this point `mse_invalid` is still 0 for all entries. -/
def acceptable (c : Cfg) (sig : Int) : Bool :=
  decide (0 < sig) && decide (sig < c.nsig) && !avoid sig.toNat && !stop sig.toNat

/-- `monitor_choose_shootdown_early` when nothing is chosen yet. -/
def choose (c : Cfg) (keepOpen : Nat → Bool) : Option Nat :=
  match buildTable c keepOpen with
  | none => none
  | some tbl =>
    match c.env with
    | some e => if acceptable c e then some e.toNat else fromConfig tbl
    | none => fromConfig tbl
where
  fromConfig (tbl : List Nat) : Option Nat :=
    if acceptable c c.config then some c.config.toNat
    else match tbl.find? (fun s => !keepOpen s) with
      | some s => some s
      | none => some lastResort

/-! ## monitor_signal_init (signal.c:282-357) -/

/-- Keep-open flags from the configured list (signal.c:308-313). -/
def openFlags (c : Cfg) (l : List Int) : Nat → Bool :=
  l.foldl (fun f (sig : Int) => if 1 ≤ sig ∧ sig < c.nsig then upd f sig.toNat true else f) fun _ => false

/-- Body of the installation loop (signal.c:324-343). -/
def initOne (c : Cfg) (shoot : Nat) (s : S) (sig : Nat) : S :=
  if avoid sig then s
  else
    let mask := sigaddset emptySet shoot
    let s := { s with kern := upd s.kern sig (required, mask) }
    match realSigaction c s.kernel sig ⟨.monitor, required, mask⟩ with
    | some kernel =>
      -- the old action is stored in mse_appl_act
      let old : Act := match s.kernel sig with
        | ⟨.app h, fl, m⟩ => ⟨h, fl, m⟩
        | ⟨_, fl, m⟩ => ⟨.dfl, fl, m⟩
      { s with appl := upd s.appl sig old, kernel := kernel }
    | none => { s with invalid := upd s.invalid sig true }

def zeroAct : Act := ⟨.dfl, 0#32, emptySet⟩

/-- `monitor_signal_init`; runs once (MONITOR_RUN_ONCE).  If the table overflows (`none` from
`choose`) the model leaves the state; `C30` shows that this does not happen. -/
def init (c : Cfg) (s : S) : S :=
  if s.inited then s
  else
    let keepOpen := openFlags c c.openList
    match choose c keepOpen with
    | none => s
    | some shoot =>
      let s : S := { s with
        inited := true
        appl := fun _ => zeroAct
        kern := fun _ => (0#32, emptySet)
        client := fun _ => none
        invalid := fun _ => false
        applHand := fun _ => false
        keepOpen := upd keepOpen shoot true
        shoot := shoot }
      sigLoop c (initOne c shoot) s

/-! ## Masks -/

def SIG_BLOCK : Int := 0
def SIG_UNBLOCK : Int := 1
def SIG_SETMASK : Int := 2

/-- The test `!mse_avoid && !mse_invalid && mse_keep_open`. -/
def kept (s : S) (sig : Nat) : Bool := !avoid sig && !s.invalid sig && s.keepOpen sig

/-- `monitor_remove_client_signals` (signal.c:369-431) by a thread with current mask `cur`. -/
def removeClientSignals (c : Cfg) (s : S) (cur : Set) (set : Set) (how : Int) : Set :=
  if how = SIG_BLOCK ∨ how = SIG_UNBLOCK then
    sigLoop c (fun set sig => if kept s sig then sigdelset set sig else set) set
  else
    sigLoop c (fun set sig => if kept s sig then
      (if cur sig then sigaddset set sig else sigdelset set sig) else set) set

/-- The kernel's sigprocmask/pthread_sigmask on a mask: `none` for an unknown `how`. -/
def kernelMask (how : Int) (cur set : Set) : Option Set :=
  if how = SIG_BLOCK then some fun k => cur k || set k
  else if how = SIG_UNBLOCK then some fun k => cur k && !set k
  else if how = SIG_SETMASK then some set
  else none

/-- Result of a call: return code, and the old action / old handler / old mask if any. -/
inductive Reply where
  | act (rc : Int) (old : Option Act)
  | handler (h : Option H)
  | mask (rc : Int) (old : Set)
  | rc (rc : Int)

/-- `sigprocmask` (signal.c:892-908) and `pthread_sigmask` (pthread.c:1207-1224) in thread
`t`; a NULL set is `none`. -/
def sigmask (c : Cfg) (s : S) (t : Nat) (how : Int) (set : Option Set) : S × Reply :=
  let s := init c s
  let cur := s.masks t
  match set with
  | none => (s, .mask 0 cur)
  | some set =>
    match kernelMask how cur (removeClientSignals c s cur set how) with
    | some m => ({ s with masks := upd s.masks t m }, .mask 0 cur)
    | none => (s, .mask (-1) cur)

/-! ## sigaction -/

/-- `monitor_adjust_saflags` (signal.c:720-724). -/
def adjustSaflags (flags : BitVec 32) : BitVec 32 := (flags ||| required) &&& ~~~forbidden

/-- `monitor_adjust_samask` (signal.c:731-738). -/
def adjustSamask (s : S) (set : Set) : Set := sigaddset set s.shoot.toNat

/-- Install `mse_kern_act` of `sig` in the kernel; the result is not checked
(signal.c:769, 858). -/
def installKern (c : Cfg) (s : S) (sig : Nat) : S :=
  match realSigaction c s.kernel sig ⟨.monitor, (s.kern sig).1, (s.kern sig).2⟩ with
  | some kernel => { s with kernel := kernel }
  | none => s

/-- `monitor_sigaction`, the client's (signal.c:746-773). -/
def clientSigaction (c : Cfg) (s : S) (sig : Int) (handler : Option Nat)
    (act : Option (BitVec 32 × Set)) : S × Reply :=
  let s := init c s
  if sig ≤ 0 ∨ sig ≥ c.nsig then (s, .rc (-1))
  else
    let sg := sig.toNat
    if avoid sg ∨ s.invalid sg then (s, .rc (-1))
    else
      let s := { s with keepOpen := upd s.keepOpen sg true, client := upd s.client sg handler }
      match act with
      | none => (s, .rc 0)
      | some (flags, mask) =>
        let s := { s with kern := upd s.kern sg (adjustSaflags flags, adjustSamask s mask) }
        (installKern c s sg, .rc 0)

/-- `monitor_appl_sigaction` (signal.c:809-862) called in thread `t`; the old action is always
requested (a NULL oldact just drops it). -/
def applSigaction (c : Cfg) (s : S) (t : Nat) (sig : Int) (act : Option Act) : S × Reply :=
  let s := init c s
  if sig ≤ 0 ∨ sig ≥ c.nsig then (s, .act (-1) none)
  else
    let sg := sig.toNat
    if s.invalid sg then (s, .act (-1) none)
    else if avoid sg then
      -- the real sigaction: setting an action fails, reading works
      match act with
      | some _ => (s, .act (-1) none)
      | none => match s.kernel sg with
        | ⟨.app h, fl, m⟩ => (s, .act 0 (some ⟨h, fl, m⟩))
        | ⟨_, fl, m⟩ => (s, .act 0 (some ⟨.dfl, fl, m⟩))
    else
      let s := match act with
        | some ⟨.fn _, _, _⟩ => { s with applHand := upd s.applHand sg true }
        | _ => s
      let old := s.appl sg
      match act with
      | none => (s, .act 0 (some old))
      | some a =>
        let s := { s with appl := upd s.appl sg a }
        let m := removeClientSignals c s (s.masks t) a.mask SIG_BLOCK
        let s := { s with kern := upd s.kern sg (adjustSaflags a.flags, adjustSamask s m) }
        (installKern c s sg, .act 0 (some old))

/-- `signal` (signal.c:871-886): `none` is SIG_ERR. -/
def signal (c : Cfg) (s : S) (t : Nat) (sig : Int) (h : H) : S × Reply :=
  match applSigaction c s t sig (some ⟨h, 0#32, emptySet⟩) with
  | (s, .act 0 (some old)) => (s, .handler (some old.h))
  | (s, _) => (s, .handler none)

/-- Installation of the shootdown handler (pthread.c:533-542): `none` is MONITOR_ERROR. -/
def installShootdown (c : Cfg) (s : S) : Option S :=
  let s := init c s
  match realSigaction c s.kernel s.shoot.toNat ⟨.shootdown, SA_RESTART, emptySet⟩ with
  | some kernel => some { s with kernel := kernel }
  | none => none

/-! ## Histories -/

inductive Op where
  | sigaction (t : Nat) (sig : Int) (act : Option Act)
  | signal (t : Nat) (sig : Int) (h : H)
  | client (sig : Int) (handler : Option Nat) (act : Option (BitVec 32 × Set))
  | sigmask (t : Nat) (how : Int) (set : Option Set)
  /-- a new thread inherits its creator's mask -/
  | newThread (parent child : Nat)
  | shootdown

def step (c : Cfg) (s : S) : Op → S × Reply
  | .sigaction t sig act => applSigaction c s t sig act
  | .signal t sig h => signal c s t sig h
  | .client sig handler act => clientSigaction c s sig handler act
  | .sigmask t how set => sigmask c s t how set
  | .newThread p ch => ({ s with masks := upd s.masks ch (s.masks p) }, .rc 0)
  | .shootdown => match installShootdown c s with
    | some s => (s, .rc 0)
    | none => (s, .rc (-1))

/-- State and replies after a history. -/
def run (c : Cfg) (s : S) : List Op → S × List Reply
  | [] => (s, [])
  | op :: ops =>
    let (s, r) := step c s op
    let (s, rs) := run c s ops
    (s, r :: rs)

/-- Before the first call: nothing initialised, the kernel table holds what the program was
started with (or what was installed before the library got control), the masks are
arbitrary. -/
def start (k : Nat → Act) (masks : Nat → Set) : S :=
  { inited := false, appl := fun _ => zeroAct, kern := fun _ => (0#32, emptySet),
    client := fun _ => none, invalid := fun _ => false, applHand := fun _ => false,
    keepOpen := fun _ => false, shoot := -1,
    kernel := fun s => ⟨.app (k s).h, (k s).flags, (k s).mask⟩, masks := masks }

/-! ## Delivery -/

/-- What `monitor_signal_handler` does, in order. -/
inductive Eff where
  | warnInvalid
  | client (id : Nat)
  | handlerInfo (id : Nat)
  | handlerPlain (id : Nat)
  | raiseStop
  | endProcess
  | endLibrary
  | setDefault
  | clearMask
  | raiseSelf
  deriving DecidableEq, Repr

/-- `monitor_signal_handler` (signal.c:196-276).  `clientRet` is what the client handler
returns when called. -/
def handler (c : Cfg) (dynamic : Bool) (s : S) (sig : Int) (clientRet : Int) : List Eff :=
  if sig ≤ 0 ∨ sig ≥ c.nsig then [.warnInvalid]
  else
    let sg := sig.toNat
    if avoid sg ∨ s.invalid sg then [.warnInvalid]
    else
      let e1 := match s.client sg with
        | some id => [Eff.client id]
        | none => []
      if (s.client sg).isSome ∧ clientRet = 0 then e1
      else
        let sa := s.appl sg
        match sa.h with
        | .ign => e1
        | .dfl =>
          if noterm sg then e1
          else if stop sg then e1 ++ [.raiseStop]
          else
            e1 ++ [.endProcess] ++ (if dynamic then [.endLibrary] else []) ++
              [.setDefault, .clearMask] ++
              (if noraise sg then [] else [.raiseSelf])
        | .fn id =>
          if sa.flags &&& SA_SIGINFO ≠ 0#32 then e1 ++ [.handlerInfo id]
          else e1 ++ [.handlerPlain id]

/-! ## sigwait (pthread.c:1237-1381) -/

/-- One return of the real sigwaitinfo/sigtimedwait, with what the helper sees at that moment:
the state of the exit cleanup and of the calling thread's record, and what the client
handler (if any) would say. -/
structure Wake where
  /-- return value; negative is an error with `errno` -/
  ret : Int
  errno : Nat
  /-- monitor_in_exit_cleanup && !monitor_fini_thread_done -/
  cleanup : Bool
  /-- tn != NULL && tn_appl_started && !tn_block_shootdown -/
  tnReady : Bool
  /-- the client accepts the signal (handler installed and returned 0) -/
  clientTakes : Bool
  /-- time spent in this wait -/
  elapsed : Nat
  deriving DecidableEq, Repr

def EINTR : Nat := 4

/-- `monitor_sigwait_helper` (pthread.c:1237-1294).  `fini` is `tn_fini_started`.  Result:
restart?, new `fini`, and whether monitor_fini_thread was called. -/
def sigwaitHelper (shoot : Int) (set : Set) (fini : Bool) (w : Wake) : Bool × Bool × Bool :=
  if w.ret < 0 then (w.errno == EINTR, fini, false)
  else if w.ret = shoot ∧ w.cleanup ∧ w.tnReady ∧ ¬ fini then (true, true, true)
  else if w.clientTakes then (true, fini, false)
  else if ¬ set w.ret.toNat then (true, fini, false)
  else (false, fini, false)

/-- The loop of `sigwait` (1311-1315), `sigwaitinfo` (1341-1345), `sigtimedwait` (1372-1376):
what is returned (`none`: still waiting), how often monitor_fini_thread ran, and the time
spent. -/
def sigwaitLoop (shoot : Int) (set : Set) (fini : Bool) : List Wake → Option Wake × Nat × Nat
  | [] => (none, 0, 0)
  | w :: ws =>
    match sigwaitHelper shoot set fini w with
    | (false, _, called) => (some w, if called then 1 else 0, w.elapsed)
    | (true, fini, called) =>
      let (r, n, t) := sigwaitLoop shoot set fini ws
      (r, n + (if called then 1 else 0), t + w.elapsed)

/-- `sigwait`'s result (pthread.c:1317-1323): an error number, or 0 and the signal. -/
def sigwaitResult (w : Wake) : Nat × Option Int :=
  if w.ret < 0 then (w.errno, none) else (0, some w.ret)

end Libmonitor.Sig
