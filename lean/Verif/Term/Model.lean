/-!
# Signals that end the process

monitor_signal_handler with default actions, and monitor_real_abort (signal.c), with the kernel's part:
actions, signal masks, delivery, the death of the process.  Any number of threads; handlers may be
interrupted; the application may call sigaction and sigprocmask at any time.

The state is that after monitor_signal_init: the library's handler is installed for every signal (the
reserved signals 9 and 19, which are never handled, are left out).

Simplifications: the client's handler is asked first, and a signal that it takes is not modelled; the
process that stops itself (raise(SIGSTOP), signal.c:245-248) goes on later, which is a return here; a
blocked signal is not delivered (pending signals are delivered at some later time, or never); the mask
that an application may set is not restricted here (see C25); sigaction is two steps, the application's
action and the installation in the kernel (see SigC for the smaller steps).
-/

namespace Libmonitor.Term

abbrev Tid := Nat

/-- Signal lists, signal.c:107-126 (Linux on x86, not Blue Gene). -/
def noterm (s : Nat) : Bool := s == 17 || s == 18 || s == 23 || s == 28
def noraise (s : Nat) : Bool := s == 11 || s == 7 || s == 4
def stop (s : Nat) : Bool := s == 20 || s == 21 || s == 22

def SIGABRT : Nat := 6

/-- The application's action for a signal (mse_appl_act). -/
inductive Disp where
  | dfl | ign | hand
  deriving DecidableEq, Repr

/-- The kernel's action: default, or the library's handler. -/
inductive KAct where
  | dfl | mon
  deriving DecidableEq, Repr

/-- How the process ended: killed by a signal (`forced`: a fault while the signal was blocked), or exit
with a status. -/
inductive End where
  | signal (s : Nat) (forced : Bool)
  | exit (status : Nat)
  deriving DecidableEq, Repr

/-- Events: monitor_end_process_fcn is called because of a signal, which gives the exit callbacks (see
C01 to C03); raise; the application's handler is called; monitor_real_abort is called; the application
sets its action. -/
inductive Ev where
  | callbacks (s : Nat)
  | raise (s : Nat)
  | handler (s : Nat)
  | abort
  | sigaction (s : Nat) (d : Disp)
  deriving DecidableEq, Repr

abbrev Mask := Nat → Bool

inductive Frame where
  /-- code of the application or the client -/
  | app
  /-- sigaction: the application's action is stored, the kernel's is about to be set (signal.c:858) -/
  | sa (s : Nat)
  /-- monitor_signal_handler entered; return from a handler to the mask before it -/
  | hd (s : Nat)
  | ret (m : Mask)
  /-- monitor_end_process_fcn and monitor_end_library_fcn are about to be called (signal.c:250-253) -/
  | e0 (s : Nat)
  /-- signal.c:254-257; 258; 259-263 -/
  | e1 (s : Nat)
  | e2 (s : Nat)
  | e3 (s : Nat)
  /-- monitor_real_abort, signal.c:788-791; 792; 793; 795 -/
  | ab1
  | ab2
  | ab3
  | ab4

/-- Kernel actions, the application's actions, the masks of the threads, the end of the process, the
history (latest first). -/
structure G where
  kact : Nat → KAct := fun _ => .mon
  appl : Nat → Disp
  mask : Tid → Mask
  dead : Option End := none
  tr : List (Tid × Ev) := []

structure S where
  g : G
  th : Tid → List Frame := fun _ => [.app]

def G.log (g : G) (t : Tid) (e : Ev) : G := { g with tr := (t, e) :: g.tr }
def G.setMask (g : G) (t : Tid) (m : Mask) : G := { g with mask := fun u => if u = t then m else g.mask u }
def G.setAct (g : G) (s : Nat) (k : KAct) : G := { g with kact := fun r => if r = s then k else g.kact r }

/-- The kernel delivers `s` to thread `t`, which does not block it: the new frames.  `extra` is the mask of
the action; the signal itself is blocked in its handler. -/
def arrive (g : G) (t : Tid) (s : Nat) (extra : Mask) : G × List Frame :=
  match g.kact s with
  | .dfl => if noterm s || stop s then (g, []) else ({ g with dead := some (.signal s false) }, [])
  | .mon => (g.setMask t (fun r => g.mask t r || extra r || r == s), [.hd s, .ret (g.mask t)])

/-- raise in thread `t`, which continues with `l`. -/
def raise (g : G) (t : Tid) (s : Nat) (extra : Mask) (l : List Frame) : G × List Frame :=
  let g := g.log t (.raise s)
  if g.mask t s then (g, l)
  else let (g, fs) := arrive g t s extra; (g, fs ++ l)

/-- One step of the innermost call of thread `t`: new globals and what replaces the frame. -/
def fstep (g : G) (t : Tid) (extra : Mask) : Frame → Option (G × List Frame)
  -- the code returns, if it is a handler or a callback (see `next`)
  | .app => some (g, [])
  | .sa s => some (g.setAct s .mon, [])
  -- signal.c:223-274
  | .hd s =>
    match g.appl s with
    | .ign => some (g, [])
    | .dfl => if noterm s || stop s then some (g, []) else some (g, [.e0 s])
    | .hand => some (g.log t (.handler s), [.app])
  | .ret m => some (g.setMask t m, [])
  | .e0 s => some (g.log t (.callbacks s), [.app, .e1 s])
  | .e1 s => some (g.setAct s .dfl, [.e2 s])
  | .e2 s => some (g.setMask t (fun _ => false), [.e3 s])
  | .e3 s => if noraise s then some (g, []) else some (raise g t s extra [])
  | .ab1 => some (g.setAct SIGABRT .dfl, [.ab2])
  | .ab2 => some (g.setMask t (fun _ => false), [.ab3])
  | .ab3 => some (raise g t SIGABRT extra [.ab4])
  -- MONITOR_ERROR, common.h:108-113
  | .ab4 => some ({ g with dead := some (.exit 1) }, [])

/-- What happens next. -/
inductive Lbl where
  /-- thread `t` goes on -/
  | go (t : Tid) (extra : Mask)
  /-- the application calls sigaction, sigprocmask; the client calls monitor_real_abort -/
  | sigaction (t : Tid) (s : Nat) (d : Disp)
  | sigmask (t : Tid) (m : Mask)
  | abort (t : Tid)
  /-- a signal from outside is delivered to a thread that does not block it -/
  | deliver (t : Tid) (s : Nat) (extra : Mask)
  /-- a fault of the thread: cannot be blocked -/
  | fault (t : Tid) (s : Nat) (extra : Mask)

def setTh (th : Tid → List Frame) (t : Tid) (l : List Frame) : Tid → List Frame :=
  fun u => if u = t then l else th u

/-- The innermost call of `t` is replaced. -/
def put (s : S) (t : Tid) (rest : List Frame) (r : G × List Frame) : S :=
  { g := r.1, th := setTh s.th t (r.2 ++ rest) }

def next (s : S) (l : Lbl) : Option S :=
  if s.g.dead.isSome then none
  else match l with
    | .go t extra =>
      match s.th t with
      | f :: rest =>
        -- the outermost code of a thread does not return here
        if rest.isEmpty then none else (fstep s.g t extra f).map (put s t rest)
      | [] => none
    | .sigaction t sg d =>
      match s.th t with
      | .app :: rest =>
        let g := s.g.log t (.sigaction sg d)
        some { g := { g with appl := fun r => if r = sg then d else g.appl r },
               th := setTh s.th t (.sa sg :: .app :: rest) }
      | _ => none
    | .sigmask t m =>
      match s.th t with
      | .app :: _ => some { s with g := s.g.setMask t m }
      | _ => none
    | .abort t =>
      match s.th t with
      | .app :: rest => some { g := s.g.log t .abort, th := setTh s.th t (.ab1 :: .app :: rest) }
      | _ => none
    | .deliver t sg extra =>
      match s.th t with
      | [] => none
      | l => if s.g.mask t sg then none else some (put s t l (arrive s.g t sg extra))
    | .fault t sg extra =>
      match s.th t with
      | [] => none
      | l =>
        if s.g.mask t sg then
          some { s with g := { s.g with dead := some (.signal sg true) } }
        else some (put s t l (arrive s.g t sg extra))

/-- Executions whose labels satisfy `A`, from any actions and masks. -/
inductive ReachA (A : S → Lbl → Prop) : S → Prop where
  | init (appl : Nat → Disp) (mask : Tid → Mask) : ReachA A { g := { appl := appl, mask := mask } }
  | next {s s' : S} {l : Lbl} : ReachA A s → A s l → next s l = some s' → ReachA A s'

abbrev Reach := ReachA fun _ _ => True

end Libmonitor.Term
