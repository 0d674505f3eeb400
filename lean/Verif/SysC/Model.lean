/-!
# system() in programs with several threads

monitor_system (fork.c:523-603), which serves system() and monitor_real_system(), in any number of
threads and in signal handlers and callbacks, with the kernel's part: the actions of SIGINT and SIGQUIT,
which belong to the process, and the signal masks, which belong to the threads.  The children made by
system() are followed up to exec, and those made by fork of the application in full.

Simplifications: the command is not NULL (NULL changes nothing, see C35), and the override is not
switched off (fork.c:138); an action is a number; the application's sigaction sets the kernel's action in
one step (see SigC); a handler may run at any time, whatever signal has caused it; all threads are there
from the beginning.  Data of the command line and the environment of the shell are in the Fork model.
-/

namespace Libmonitor.SysC

abbrev Tid := Nat
abbrev Act := Nat
abbrev Mask := Nat → Bool

/-- The action of SIG_IGN (fork.c:549-550). -/
def IGN : Act := 1

def SIGCHLD : Nat := 17

/-- SIG_BLOCK of SIGCHLD (fork.c:551-552, 560). -/
def addChld (m : Mask) : Mask := fun n => m n || n == SIGCHLD

/-- The two signals that are ignored meanwhile. -/
inductive Sg where
  | int | quit
  deriving DecidableEq, Repr

/-- Events.  `c` numbers the calls of system(), `cb` tells whether callbacks are wanted. -/
inductive Ev where
  | enter (c : Nat) (cb : Bool)
  | preFork (c : Nat)
  | preForkRet (c : Nat) (d : Int)
  /-- the action found, and replaced by SIG_IGN -/
  | save (s : Sg) (c : Nat) (a : Act)
  /-- the mask found, and SIGCHLD blocked -/
  | blocked (c : Nat) (m : Mask)
  /-- the result of fork in the parent -/
  | forked (c : Nat) (pid : Int)
  | waitEnd (c : Nat) (st : Int)
  | restore (s : Sg) (c : Nat) (a : Act)
  | unblocked (c : Nat) (m : Mask)
  | postFork (c : Nat) (pid : Int) (d : Int)
  | ret (c : Nat) (st : Int)
  /-- here the child of call `c` begins; what is before is the parent's history -/
  | born (c : Nat)
  /-- exec of the shell, with these actions and this mask; exit(127) -/
  | exec (c : Nat) (cb : Bool) (int quit : Act) (m : Mask)
  | exit127 (c : Nat)
  /-- the application sets an action -/
  | appSet (s : Sg) (a : Act)
  /-- here a child made by the application's fork begins -/
  | appFork

/-- Where a call is. -/
inductive Pc where
  /-- fork.c:554-556, before and in monitor_pre_fork -/
  | pre | preRet
  /-- fork.c:558, 559, 560 -/
  | sv1 | sv2 | blk
  /-- fork.c:562; 585 -/
  | frk | wait
  /-- fork.c:592, 593, 594 -/
  | rs1 | rs2 | rs3
  /-- fork.c:596-599; 602 -/
  | post | out
  /-- in the child, fork.c:572, 573, 574; 579; 581 -/
  | ch1 | ch2 | ch3 | exc | ex127
  deriving DecidableEq, Repr

/-- The local variables of monitor_system (fork.c:526-532), with the number of the call. -/
structure K where
  c : Nat
  cb : Bool
  d : Int := 0
  oi : Act := 0
  oq : Act := 0
  om : Mask := fun _ => false
  pid : Int := 0
  st : Int := 0

inductive Frame where
  /-- code of the application or the client -/
  | app
  /-- return from a signal handler to the mask before it -/
  | sigret (m : Mask)
  | sys (p : Pc) (k : K)

structure G where
  act : Sg → Act
  mask : Tid → Mask
  nextC : Nat := 0
  /-- the process has ended, or runs another program -/
  dead : Bool := false
  tr : List (Tid × Ev) := []

structure S where
  g : G
  th : Tid → List Frame := fun _ => [.app]

def G.log (g : G) (t : Tid) (e : Ev) : G := { g with tr := (t, e) :: g.tr }
def G.setMask (g : G) (t : Tid) (m : Mask) : G := { g with mask := fun u => if u = t then m else g.mask u }
def G.setAct (g : G) (s : Sg) (a : Act) : G := { g with act := fun r => if r = s then a else g.act r }

/-- One step of monitor_system; `v` is the result of what is called: the value of monitor_pre_fork, the
result of fork in the parent, the status from waitpid (−1 if it fails otherwise than with EINTR), 0 if
exec succeeds. -/
def sstep (g : G) (t : Tid) (v : Int) (k : K) : Pc → Option (G × List Frame)
  | .pre =>
    if k.cb then some (g.log t (.preFork k.c), [.app, .sys .preRet k])
    else some (g, [.sys .sv1 k])
  | .preRet => some (g.log t (.preForkRet k.c v), [.sys .sv1 { k with d := v }])
  | .sv1 => some ((g.log t (.save .int k.c (g.act .int))).setAct .int IGN,
      [.sys .sv2 { k with oi := g.act .int }])
  | .sv2 => some ((g.log t (.save .quit k.c (g.act .quit))).setAct .quit IGN,
      [.sys .blk { k with oq := g.act .quit }])
  | .blk => some ((g.log t (.blocked k.c (g.mask t))).setMask t (addChld (g.mask t)),
      [.sys .frk { k with om := g.mask t }])
  -- 0 is the child's result, see `next`
  | .frk =>
    if v = 0 then none
    else if v < 0 then some (g.log t (.forked k.c v), [.sys .rs1 { k with pid := v, st := -1 }])
    else some (g.log t (.forked k.c v), [.sys .wait { k with pid := v }])
  | .wait => some (g.log t (.waitEnd k.c v), [.sys .rs1 { k with st := v }])
  | .rs1 => some ((g.log t (.restore .int k.c k.oi)).setAct .int k.oi, [.sys .rs2 k])
  | .rs2 => some ((g.log t (.restore .quit k.c k.oq)).setAct .quit k.oq, [.sys .rs3 k])
  | .rs3 => some ((g.log t (.unblocked k.c k.om)).setMask t k.om, [.sys .post k])
  | .post =>
    if k.cb then some (g.log t (.postFork k.c k.pid k.d), [.app, .sys .out k])
    else some (g, [.sys .out k])
  | .out => some (g.log t (.ret k.c k.st), [])
  | .ch1 => some ((g.log t (.restore .int k.c k.oi)).setAct .int k.oi, [.sys .ch2 k])
  | .ch2 => some ((g.log t (.restore .quit k.c k.oq)).setAct .quit k.oq, [.sys .ch3 k])
  | .ch3 => some ((g.log t (.unblocked k.c k.om)).setMask t k.om, [.sys .exc k])
  | .exc =>
    let g := g.log t (.exec k.c k.cb (g.act .int) (g.act .quit) (g.mask t))
    if v = 0 then some ({ g with dead := true }, []) else some (g, [.sys .ex127 k])
  | .ex127 => some ({ g.log t (.exit127 k.c) with dead := true }, [])

/-- One step of the innermost frame of thread `t`. -/
def fstep (g : G) (t : Tid) (v : Int) : Frame → Option (G × List Frame)
  -- a handler or a callback returns (see `next`)
  | .app => some (g, [])
  | .sigret m => some (g.setMask t m, [])
  | .sys p k => sstep g t v k p

/-- What happens next. -/
inductive Lbl where
  /-- thread `t` goes on -/
  | go (t : Tid) (v : Int)
  /-- waitpid is interrupted (fork.c:585-586) -/
  | eintr (t : Tid)
  /-- code of the application or the client calls system() or monitor_real_system(), sigaction,
  sigprocmask, fork -/
  | system (t : Tid) (cb : Bool)
  | appSet (t : Tid) (s : Sg) (a : Act)
  | appMask (t : Tid) (m : Mask)
  | fork (t : Tid)
  /-- a signal handler is called; `extra` is the mask of its action -/
  | interrupt (t : Tid) (extra : Mask)
  /-- `n` frames are left, by longjmp from a handler or by cancellation (in a handler or in waitpid), the
  mask is then `m` -/
  | unwind (t : Tid) (n : Nat) (m : Mask)
  /-- the fork of system() makes a child, which is followed from here on -/
  | child (t : Tid)

def setTh (th : Tid → List Frame) (t : Tid) (l : List Frame) : Tid → List Frame :=
  fun u => if u = t then l else th u

/-- Only thread `t` is left, with these frames. -/
def only (t : Tid) (l : List Frame) : Tid → List Frame := fun u => if u = t then l else []

/-- Where frames may be left from: code of the application, or waitpid, which is a cancellation point. -/
def Frame.leaves : Frame → Bool
  | .app => true
  | .sys .wait _ => true
  | _ => false

/-- Where the thread may be afterwards: in code of the application, or at its end. -/
def landing : List Frame → Bool
  | [] => true
  | .app :: _ => true
  | _ => false

def next (s : S) (l : Lbl) : Option S :=
  if s.g.dead then none
  else match l with
    | .go t v =>
      match s.th t with
      | f :: rest =>
        -- the outermost code of a thread does not return
        if rest.isEmpty then none
        else (fstep s.g t v f).map fun r => { g := r.1, th := setTh s.th t (r.2 ++ rest) }
      | [] => none
    | .eintr t =>
      match s.th t with
      | .sys .wait _ :: _ => some s
      | _ => none
    | .system t cb =>
      match s.th t with
      | .app :: rest =>
        some { g := { s.g.log t (.enter s.g.nextC cb) with nextC := s.g.nextC + 1 },
               th := setTh s.th t (.sys .pre { c := s.g.nextC, cb := cb } :: .app :: rest) }
      | _ => none
    | .appSet t sg a =>
      match s.th t with
      | .app :: _ => some { s with g := (s.g.log t (.appSet sg a)).setAct sg a }
      | _ => none
    | .appMask t m =>
      match s.th t with
      | .app :: _ => some { s with g := s.g.setMask t m }
      | _ => none
    | .fork t =>
      match s.th t with
      | .app :: rest => some { g := s.g.log t .appFork, th := only t (.app :: rest) }
      | _ => none
    | .interrupt t extra =>
      match s.th t with
      | [] => none
      | l => some { g := s.g.setMask t (fun n => s.g.mask t n || extra n),
                    th := setTh s.th t (.app :: .sigret (s.g.mask t) :: l) }
    | .unwind t n m =>
      match s.th t with
      | [] => none
      | f :: rest =>
        if f.leaves && landing ((f :: rest).drop n) then
          some { g := s.g.setMask t m, th := setTh s.th t ((f :: rest).drop n) }
        else none
    | .child t =>
      match s.th t with
      | .sys .frk k :: rest =>
        some { g := s.g.log t (.born k.c), th := only t (.sys .ch1 k :: rest) }
      | _ => none

/-- Executions whose labels satisfy `A`, from the actions `a0` and masks `m0`. -/
inductive ReachA (A : S → Lbl → Prop) (a0 : Sg → Act) (m0 : Tid → Mask) : S → Prop where
  | init : ReachA A a0 m0 { g := { act := a0, mask := m0 } }
  | next {s s' : S} {l : Lbl} : ReachA A a0 m0 s → A s l → next s l = some s' → ReachA A a0 m0 s'

abbrev Reach := ReachA fun _ _ => True

end Libmonitor.SysC
