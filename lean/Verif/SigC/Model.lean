/-!
# The signal actions as an interleaving machine

One signal, which is valid and not on the avoid list; any number of threads call sigaction and
signal (application) and monitor_sigaction (client) for it while it is delivered to any of them,
also inside of these functions.  The entry of monitor_signal_array is accessed without a lock;
each access to one of its fields is one step.  monitor_signal_init has run.

Simplifications: a structure is copied in the order handler, flags, mask (C leaves the order
open); the adjustment of flags and mask (signal.c:716-737, see Sig) is the same for all
actions, the model keeps the values before adjustment; the adjustment is part of the
step that stores the mask; the real sigaction reads its argument in one step; what the default
action does (signal.c:243-264, see C28) is left out; compiler optimisation and weak memory are left out.  A delivery is possible at any
time: that the kernel blocks a signal while its handler runs only excludes executions.
-/

namespace Libmonitor.SigC

abbrev Tid := Nat

/-- sa_flags: SA_SIGINFO, and all other flags. -/
structure Flags where
  info : Bool
  more : Nat
  deriving DecidableEq, Repr

/-- struct sigaction; handler 0 is SIG_DFL, 1 is SIG_IGN. -/
structure Act where
  h : Nat
  flags : Flags
  mask : Nat
  deriving DecidableEq, Repr

/-- Observable events: the application calls sigaction (call number, new action if any,
whether it wants the old one); the call
returns (the old action if asked for); the client calls monitor_sigaction and it returns; the
client's handler is called and returns (`dealt`: 0, nothing more to do); the application's action is applied: its handler is called (with
or without siginfo), the signal is ignored, the default action is taken. -/
inductive Ev where
  | call (c : Nat) (act : Option Act) (old : Bool)
  | ret (c : Nat) (old : Option Act)
  | clientCall (h : Nat) (act : Option Act)
  | clientRet
  | deliver
  | clientRun (h : Nat)
  | clientDid (dealt : Bool)
  | run (h : Nat) (info : Bool)
  | ignored
  | dflt
  deriving DecidableEq, Repr

/-- What remains to be done of a call. -/
inductive Frame where
  /-- code of the application or the client -/
  | app
  /-- signal.c:845-847: the old action is copied: handler, flags, mask -/
  | o0 (c : Nat) (act : Option Act)
  | o1 (c : Nat) (act : Option Act) (h : Nat)
  | o2 (c : Nat) (act : Option Act) (h : Nat) (fl : Flags)
  /-- signal.c:848 -/
  | s (c : Nat) (act : Option Act) (r : Option Act)
  /-- signal.c:853: the new action is copied: handler, flags, mask -/
  | s0 (c : Nat) (act : Act) (r : Option Act)
  | s1 (c : Nat) (act : Act) (r : Option Act)
  | s2 (c : Nat) (act : Act) (r : Option Act)
  /-- signal.c:854; 855-857; 858 -/
  | k0 (c : Nat) (act : Act) (r : Option Act)
  | k1 (c : Nat) (act : Act) (r : Option Act)
  | k2 (c : Nat) (r : Option Act)
  /-- signal.c:861 -/
  | ret (c : Nat) (r : Option Act)
  /-- monitor_sigaction, signal.c:763-765; 766; 767-768; 769; 772 -/
  | c0 (h : Nat) (act : Option Act)
  | c1 (act : Act)
  | c2 (act : Act)
  | c3
  | cret
  /-- monitor_signal_handler, signal.c:217; 218; the client's return code, 219-221 -/
  | d0
  | d0'
  | d1
  /-- signal.c:228; 234; 270; 271 and 273 -/
  | d2
  | d3
  | d4
  | d5 (info : Bool)
  deriving DecidableEq, Repr

/-- Flags and mask as the kernel has them. -/
structure Kern where
  flags : Flags
  mask : Nat
  deriving DecidableEq, Repr

def Act.kern (a : Act) : Kern := ⟨a.flags, a.mask⟩

/-- mse_appl_act, mse_kern_act and mse_client_handler (0 is NULL) of the entry (signal.c:80-84);
what the kernel has been told; number of calls; the history, latest first. -/
structure G where
  appl : Act
  kern : Kern
  sys : Kern
  client : Nat := 0
  ncall : Nat := 0
  tr : List (Tid × Ev) := []
  deriving DecidableEq, Repr

structure S where
  g : G
  th : Tid → List Frame := fun _ => [.app]

/-- After monitor_signal_init: it found the action `a` (signal.c:329-334) and installed its own
handler with the required flags and an empty mask, here `k`. -/
def S.first (a : Act) (k : Kern) : S := { g := { appl := a, kern := k, sys := k } }

/-- What a thread does next.  `go ok`: the next step of the innermost call (`ok`: the client's
handler has returned 0).  `sigaction`, `client`: calls.  `back`: code outside of the library
returns.  `deliver`: the signal arrives.  `unwind`: cancellation or longjmp out of all calls. -/
inductive Inp where
  | go (ok : Bool)
  | sigaction (act : Option Act) (old : Bool)
  | client (h : Nat) (act : Option Act)
  | back
  | deliver
  | unwind
  deriving DecidableEq, Repr

structure Lbl where
  t : Tid
  i : Inp
  deriving DecidableEq, Repr

def G.log (g : G) (t : Tid) (e : Ev) : G := { g with tr := (t, e) :: g.tr }

/-- One step of the innermost call (references at the constructors of `Frame`). -/
def fstep (g : G) (t : Tid) (ok : Bool) : Frame → Option (G × List Frame)
  | .app => none
  | .o0 c act => some (g, [.o1 c act g.appl.h])
  | .o1 c act h => some (g, [.o2 c act h g.appl.flags])
  | .o2 c act h fl => some (g, [.s c act (some ⟨h, fl, g.appl.mask⟩)])
  | .s c act r => some (g, [match act with | some a => .s0 c a r | none => .ret c r])
  | .s0 c a r => some ({ g with appl := { g.appl with h := a.h } }, [.s1 c a r])
  | .s1 c a r => some ({ g with appl := { g.appl with flags := a.flags } }, [.s2 c a r])
  | .s2 c a r => some ({ g with appl := { g.appl with mask := a.mask } }, [.k0 c a r])
  | .k0 c a r => some ({ g with kern := { g.kern with flags := a.flags } }, [.k1 c a r])
  | .k1 c a r => some ({ g with kern := { g.kern with mask := a.mask } }, [.k2 c r])
  | .k2 c r => some ({ g with sys := g.kern }, [.ret c r])
  | .ret c r => some (g.log t (.ret c r), [])
  | .c0 h act => some ({ g with client := h }, [match act with | some a => .c1 a | none => .cret])
  | .c1 a => some ({ g with kern := { g.kern with flags := a.flags } }, [.c2 a])
  | .c2 a => some ({ g with kern := { g.kern with mask := a.mask } }, [.c3])
  | .c3 => some ({ g with sys := g.kern }, [.cret])
  | .cret => some (g.log t .clientRet, [])
  | .d0 =>
    if g.client ≠ 0 then some (g, [.d0']) else some (g, [.d2])
  | .d0' => some (g.log t (.clientRun g.client), [.app, .d1])
  | .d1 => some (g.log t (.clientDid ok), if ok then [] else [.d2])
  | .d2 => if g.appl.h = 1 then some (g.log t .ignored, []) else some (g, [.d3])
  | .d3 => if g.appl.h = 0 then some (g.log t .dflt, []) else some (g, [.d4])
  | .d4 => some (g, [.d5 g.appl.flags.info])
  | .d5 info => some (g.log t (.run g.appl.h info), [.app])

/-- One step of the machine.  signal(2) is sigaction with `old` (signal.c:871-886). -/
def next (s : S) (l : Lbl) : Option S :=
  let put (g : G) (st : List Frame) : S := { g := g, th := fun u => if u = l.t then st else s.th u }
  match l.i, s.th l.t with
  | .go ok, f :: rest => (fstep s.g l.t ok f).map fun r => put r.1 (r.2 ++ rest)
  | .sigaction act old, .app :: rest =>
    let c := s.g.ncall
    some (put ({ s.g with ncall := c + 1 }.log l.t (.call c act old))
      ((if old then .o0 c act else .s c act none) :: .app :: rest))
  | .client h act, .app :: rest =>
    some (put (s.g.log l.t (.clientCall h act)) (.c0 h act :: .app :: rest))
  | .back, .app :: f :: rest => some (put s.g (f :: rest))
  | .deliver, st => some (put (s.g.log l.t .deliver) (.d0 :: st))
  | .unwind, .app :: _ => some (put s.g [.app])
  | _, _ => none

/-- States reachable by steps that satisfy `A`. -/
inductive ReachA (A : S → Lbl → Prop) (a : Act) (k : Kern) : S → Prop where
  | init : ReachA A a k (.first a k)
  | step {s s' l} : ReachA A a k s → A s l → next s l = some s' → ReachA A a k s'

abbrev Reach := ReachA fun _ _ => True

/-- Runs a schedule. -/
def run (A : S → Lbl → Prop) [∀ s l, Decidable (A s l)] (s : S) : List Lbl → Option S
  | [] => some s
  | l :: ls => if A s l then (next s l).bind fun s' => run A s' ls else none

theorem reachA_run {A : S → Lbl → Prop} [∀ s l, Decidable (A s l)] {a : Act} {k : Kern} {s s' : S}
    {ls : List Lbl} (h : run A s ls = some s') (hr : ReachA A a k s) : ReachA A a k s' := by
  induction ls generalizing s with
  | nil => simp only [run, Option.some.injEq] at h; exact h ▸ hr
  | cons l ls ih =>
    simp only [run] at h
    split at h
    · rename_i hA
      cases hn : next s l with
      | none => simp [hn] at h
      | some s1 => rw [hn] at h; exact ih h (.step hr hA hn)
    · simp at h

theorem exists_of_run {A : S → Lbl → Prop} [∀ s l, Decidable (A s l)] {a : Act} {k : Kern}
    {p : S → Bool} {ls : List Lbl}
    (h : (match run A (.first a k) ls with | some s => p s | none => false) = true) :
    ∃ s, ReachA A a k s ∧ p s = true := by
  cases hr : run A (.first a k) ls with
  | none => simp [hr] at h
  | some s => rw [hr] at h; exact ⟨s, reachA_run hr .init, h⟩

end Libmonitor.SigC
