import Verif.Sig.Model

/-!
# The system without the library, and what signals mean

This file describes the plain kernel: the reference the application compares with.
-/

namespace Libmonitor.Sig.Spec

/-- A plain kernel: just a table of actions. -/
abbrev Table := Nat → Act

/-- sigaction(2) on a plain system: numbers the kernel does not accept fail; SIGKILL and
SIGSTOP can be read but not set. -/
def sigaction (c : Cfg) (k : Table) (sig : Int) (act : Option Act) : Table × Int × Option Act :=
  if 1 ≤ sig ∧ sig < c.nsig ∧ c.kernelOk sig.toNat = true then
    match act with
    | none => (k, 0, some (k sig.toNat))
    | some a =>
      if sig = 9 ∨ sig = 19 then (k, -1, none)
      else (fun s => if (s : Int) = sig then a else k s, 0, some (k sig.toNat))
  else (k, -1, none)

/-- signal(2): the old handler or SIG_ERR. -/
def signal (c : Cfg) (k : Table) (sig : Int) (h : H) : Table × Option H :=
  match sigaction c k sig (some ⟨h, 0#32, fun _ => false⟩) with
  | (k', 0, some old) => (k', some old.h)
  | (k', _, _) => (k', none)

/-- What the application gets back from one of its calls. -/
inductive AppReply where
  | act (rc : Int) (old : Option Act)
  | handler (h : Option H)

/-- One call on a plain kernel.  Calls by the client, mask changes, thread creation and the
library's own installations have no effect on the application's table and no reply. -/
def call (c : Cfg) (k : Table) : Op → Table × Option AppReply
  | .sigaction _ sig act => match sigaction c k sig act with
    | (k', rc, old) => (k', some (.act rc old))
  | .signal _ sig h => match signal c k sig h with
    | (k', old) => (k', some (.handler old))
  | _ => (k, none)

/-- The replies of a plain kernel to a history, and its table afterwards. -/
def replies (c : Cfg) (k : Table) : List Op → List (Option AppReply)
  | [] => []
  | op :: ops => (call c k op).2 :: replies c (call c k op).1 ops

def table (c : Cfg) (k : Table) : List Op → Table
  | [] => k
  | op :: ops => table c (call c k op).1 ops

/-- The replies the application sees of the library. -/
def appView : Reply → Option AppReply
  | .act rc old => some (.act rc old)
  | .handler h => some (.handler h)
  | _ => none

/-- Default actions on Linux. -/
inductive Default where
  | ignore | stop | terminate
  deriving DecidableEq, Repr

def default (sig : Nat) : Default :=
  if sig = 17 ∨ sig = 18 ∨ sig = 23 ∨ sig = 28 then .ignore
  else if sig = 19 ∨ sig = 20 ∨ sig = 21 ∨ sig = 22 then .stop
  else .terminate

/-- What a delivered signal amounts to for the application. -/
inductive Outcome where
  | nothing
  /-- its handler is called; `info`: with the three-argument form -/
  | handler (id : Nat) (info : Bool)
  | stopped
  | terminated
  deriving DecidableEq, Repr

/-- Meaning of a disposition. -/
def outcome (a : Act) (sig : Nat) : Outcome :=
  match a.h with
  | .ign => .nothing
  | .fn id => .handler id (decide (a.flags &&& SA_SIGINFO ≠ 0#32))
  | .dfl => match default sig with
    | .ignore => .nothing
    | .stop => .stopped
    | .terminate => .terminated

/-- What the effects of the handler amount to, by the rules of the kernel: SIGSTOP stops; a
raised signal with default action and empty mask terminates; returning from the handler
of a hardware fault executes the faulting instruction again, which terminates if the
action is now the default one; returning from a signal sent by another process (`fault =
false`) just continues. -/
def observe (fault : Bool) (effs : List Eff) : Outcome :=
  match effs.getLast? with
  | some .raiseStop => .stopped
  | some (.handlerInfo id) => .handler id true
  | some (.handlerPlain id) => .handler id false
  | some .raiseSelf => .terminated
  | some .clearMask => if fault then .terminated else .nothing
  | _ => .nothing

/-- Delivery on a plain kernel: SA_RESETHAND puts the default action back first. -/
def deliver (k : Table) (sig : Nat) : Table × Outcome :=
  match (k sig).h with
  | .fn _ =>
    if (k sig).flags &&& SA_RESETHAND ≠ 0#32 then
      (fun s => if s = sig then { k sig with h := .dfl } else k s, outcome (k sig) sig)
    else (k, outcome (k sig) sig)
  | _ => (k, outcome (k sig) sig)

/-- The outcomes of `n` deliveries in a row. -/
def deliveries (k : Table) (sig : Nat) : Nat → List Outcome
  | 0 => []
  | n + 1 => (deliver k sig).2 :: deliveries (deliver k sig).1 sig n

/-- A slow system call interrupted by a handled signal fails with EINTR. -/
def Interrupts (flags : BitVec 32) : Prop := flags &&& 0x10000000#32 = 0#32
/-- The handler runs on the alternate stack. -/
def OnAltStack (flags : BitVec 32) : Prop := flags &&& 0x08000000#32 ≠ 0#32

/-- The kernel reaps terminated children by itself (no zombies, wait fails with ECHILD):
SIGCHLD ignored explicitly or SA_NOCLDWAIT. -/
def Reaps (chld : KAct) : Prop := chld.h = .app .ign ∨ chld.flags &&& 0x2#32 ≠ 0#32

/-- Disposition after exec: ignored stays ignored, everything else becomes the default. -/
def afterExec (k : KAct) : H :=
  match k.h with
  | .app .ign => .ign
  | _ => .dfl

/-- A signal the library manages and the kernel accepts. -/
def Managed (c : Cfg) (sig : Nat) : Prop :=
  1 ≤ sig ∧ sig < c.nsig ∧ c.kernelOk sig = true ∧ sig ≠ 9 ∧ sig ≠ 19

/-- A signal the client asked to keep open: in the configured list, or registered with
monitor_sigaction during `ops`. -/
def ClientSignal (c : Cfg) (ops : List Op) (sig : Nat) : Prop :=
  Managed c sig ∧ ((sig : Int) ∈ c.openList ∨ ∃ h a, Op.client sig h a ∈ ops)

/-- A wakeup of the real sigwait that is the shootdown request. -/
def IsShootdown (shoot : Int) (w : Wake) : Prop :=
  w.ret = shoot ∧ w.cleanup = true ∧ w.tnReady = true

instance (shoot : Int) (w : Wake) : Decidable (IsShootdown shoot w) := by
  unfold IsShootdown; infer_instance

/-- A wakeup meant for the application: an error other than interruption, or a signal of the
set that the client does not take and that is not the shootdown request. -/
def ForApp (shoot : Int) (set : Set) (w : Wake) : Prop :=
  (w.ret < 0 ∧ w.errno ≠ 4) ∨
  (0 ≤ w.ret ∧ set w.ret.toNat = true ∧ w.clientTakes = false ∧ ¬ IsShootdown shoot w)

instance (shoot : Int) (set : Set) (w : Wake) : Decidable (ForApp shoot set w) := by
  unfold ForApp; infer_instance

/-- The candidate signals of the documentation: realtime signals except eight at both
ends, then SIGUSR2, SIGUSR1, SIGPWR, SIGURG, SIGPIPE. -/
def Candidate (c : Cfg) (sig : Nat) : Prop :=
  (c.rtmin + 8 ≤ sig ∧ sig + 8 ≤ c.rtmax ∧ sig < c.nsig) ∨
    sig = 12 ∨ sig = 10 ∨ sig = 30 ∨ sig = 23 ∨ sig = 13

end Libmonitor.Sig.Spec
