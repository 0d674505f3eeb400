import Verif.Sig.Model

/-!
# The first use of the signal table

monitor_signal_init (signal.c:282-357) with the guard MONITOR_RUN_ONCE (common.h:161-164) in two steps,
monitor_choose_shootdown_early (signal.c:438-527), monitor_shootdown_signal (532-542), and the functions that
begin with monitor_signal_init: monitor_sigaction of the client (745-773), sigaction and signal of the
application (809-885); called from any number of threads and signal handlers.  The Sig model takes
monitor_signal_init as one step; here it is in full.

Simplifications: of the entries of monitor_signal_array the fields mse_keep_open, mse_client_handler,
mse_appl_act and the handler in mse_kern_act are modelled (monitor_sigaction with a NULL action); which
signals are avoided or invalid is taken from the configuration, although the array says so only after
signal.c:296-298 and 335-341.  memset is one step, and so are the loops over the static lists, the building
of the table of candidates and the search in it (with `Sig.buildTable` and `Sig.acceptable`), and the saving
of an action with the call of the real sigaction.  The effect of a delivered signal is the pair of client
handler and saved action that monitor_signal_handler finds; what it does with them is in Sig.
-/

namespace Libmonitor.SigI

open Sig (Cfg)

abbrev Tid := Nat
abbrev Call := Nat
abbrev Hand := Nat

/-- An action in the kernel or in mse_appl_act: one of the application (or default), or
monitor_signal_handler. -/
inductive Act where
  | app (h : Hand)
  | ours
  deriving DecidableEq, Repr

/-- What a call does next. -/
inductive Step where
  /-- common.h:163, 164 -/
  | test | set
  /-- signal.c:295; 296-313 -/
  | clear | mark
  /-- signal.c:445; 453-479; 485-527 up to the assignment; the assignment -/
  | c0 | c1 | c2 | c3 (v : Nat)
  /-- signal.c:316; 324-343 for signal `sig` -/
  | i5 | inst (sig : Nat)
  /-- signal.c:535; 541 -/
  | s0 | s3
  /-- signal.c:753-760; 763 -/
  | a1 (sig : Nat) (h : Hand) | a2 (sig : Nat) (h : Hand)
  /-- signal.c:853-858: the application's action is saved, and the kernel gets mse_kern_act -/
  | b1 (sig : Nat) (h : Hand)
  /-- signal.c:214-228 -/
  | d1 (sig : Nat)
  deriving DecidableEq, Repr

/-- Where a function returns to: monitor_shootdown_signal at its second (s2) and third call's end (s3),
monitor_signal_init behind the choice (i5), monitor_sigaction, sigaction. -/
inductive Ret where
  | s2 | s3 | i5 | a1 (sig : Nat) (h : Hand) | b1 (sig : Nat) (h : Hand)
  deriving DecidableEq, Repr

inductive Ev where
  /-- monitor_signal_init has finished -/
  | fin (c : Call)
  /-- monitor_shootdown_signal returns; `none` is -1 -/
  | answer (c : Call) (v : Option Nat)
  /-- the client's handler for a signal is set; the application's action is saved -/
  | client (c : Call) (sig : Nat) (h : Hand)
  | appl (c : Call) (sig : Nat) (h : Hand)
  /-- a signal is delivered: the client's handler, the application's action -/
  | deliver (c : Call) (sig : Nat) (h : Option Hand) (a : Act)
  | fork
  deriving DecidableEq, Repr

abbrev Slot := Option Call

structure S where
  /-- the actions before libmonitor -/
  orig : Nat → Hand
  /-- MONITOR_SHOOTDOWN_SIGNAL -/
  env : Option Int
  run : Bool := false
  /-- shootdown_signal (signal.c:152); `none` is -1 -/
  sd : Option Nat := none
  /-- monitor_shootdown_list (signal.c:138), up to the end -/
  table : List Nat := []
  keep : Nat → Bool := fun _ => false
  client : Nat → Option Hand := fun _ => none
  /-- mse_appl_act; `app 0` is the default action -/
  app : Nat → Act := fun _ => .app 0
  /-- mse_kern_act has monitor_signal_handler in it; otherwise it is zero, which is the default action -/
  kern : Nat → Bool := fun _ => false
  kernel : Nat → Act
  pc : Call → Option (Step × List Ret) := fun _ => none
  th : Tid → List Slot := fun _ => [none]
  nextC : Nat := 0
  tr : List Ev := []

def S.log (s : S) (e : Ev) : S := { s with tr := e :: s.tr }
def S.goto (s : S) (c : Call) (p : Option (Step × List Ret)) : S :=
  { s with pc := fun d => if d = c then p else s.pc d }
def S.setTh (s : S) (t : Tid) (l : List Slot) : S := { s with th := fun u => if u = t then l else s.th u }

/-- A function returns. -/
def S.ret (s : S) (t : Tid) (c : Call) (rest : List Slot) : List Ret → S
  | [] => (s.goto c none).setTh t rest
  | .s2 :: k => s.goto c (some (.c0, .s3 :: k))
  | .s3 :: k => s.goto c (some (.s3, k))
  | .i5 :: k => s.goto c (some (.i5, k))
  | .a1 g h :: k => s.goto c (some (.a1 g h, k))
  | .b1 g h :: k => s.goto c (some (.b1 g h, k))

/-- One step of call `c`, the innermost frame of thread `t`. -/
def cstep (f : Cfg) (s : S) (t : Tid) (c : Call) (rest : List Slot) (k : List Ret) : Step → S
  | .test => if s.run then s.ret t c rest k else s.goto c (some (.set, k))
  | .set => { s.goto c (some (.clear, k)) with run := true }
  | .clear =>
    { s.goto c (some (.mark, k)) with
      keep := fun _ => false, client := fun _ => none, app := fun _ => .app 0, kern := fun _ => false }
  | .mark =>
    { s.goto c (some (.c0, .i5 :: k)) with
      keep := fun g => s.keep g || Sig.openFlags f f.openList g }
  | .c0 => match s.sd with
    | some _ => s.ret t c rest k
    | none => s.goto c (some (.c1, k))
  | .c1 => match Sig.buildTable f s.keep with
    | some tbl => { s.goto c (some (.c2, k)) with table := tbl }
    | none => s   -- does not happen, C30_table_in_bounds
  | .c2 => s.goto c (some (.c3 pick, k))
  | .c3 v => { s with sd := some v }.ret t c rest k
  | .i5 => match s.sd with
    | some v => { s.goto c (some (.inst 1, k)) with keep := fun g => if g = v then true else s.keep g }
    | none => s   -- does not happen, a choice has been made
  | .inst g =>
    if g < f.nsig then
      if Sig.avoid g || !f.kernelOk g then s.goto c (some (.inst (g + 1), k))
      else { s.goto c (some (.inst (g + 1), k)) with
        app := fun x => if x = g then s.kernel g else s.app x
        kern := fun x => if x = g then true else s.kern x
        kernel := fun x => if x = g then .ours else s.kernel x }
    else (s.log (.fin c)).ret t c rest k
  | .s0 => match s.sd with
    | some v => (s.log (.answer c (some v))).ret t c rest k
    | none => s.goto c (some (.test, .s2 :: k))
  | .s3 => (s.log (.answer c s.sd)).ret t c rest k
  | .a1 g h =>
    if 1 ≤ g ∧ g < f.nsig ∧ ¬ Sig.avoid g ∧ f.kernelOk g then
      { s.goto c (some (.a2 g h, k)) with keep := fun x => if x = g then true else s.keep x }
    else s.ret t c rest k
  | .a2 g h => { (s.log (.client c g h)).ret t c rest k with client := fun x => if x = g then some h else s.client x }
  | .b1 g h =>
    if 1 ≤ g ∧ g < f.nsig ∧ ¬ Sig.avoid g ∧ f.kernelOk g then
      { (s.log (.appl c g h)).ret t c rest k with
        app := fun x => if x = g then .app h else s.app x
        kernel := fun x => if x = g then (if s.kern g then .ours else .app 0) else s.kernel x }
    else s.ret t c rest k
  | .d1 g => (s.log (.deliver c g (s.client g) (s.app g))).ret t c rest k
where
  /-- signal.c:485-527 -/
  pick : Nat :=
    let fromConfig := if Sig.acceptable f f.config then f.config.toNat
      else (s.table.find? (fun x => !s.keep x)).getD Sig.lastResort
    match s.env with
    | some e => if Sig.acceptable f e then e.toNat else fromConfig
    | none => fromConfig

/-- Who calls: a function that begins with monitor_signal_init (main.c:215, pthread.c:1213, signal.c:175,
898); monitor_shootdown_signal; monitor_sigaction of the client; sigaction, signal of the application. -/
inductive Entry where
  | init | ask | client (sig : Nat) (h : Hand) | appl (sig : Nat) (h : Hand)
  deriving DecidableEq, Repr

def Entry.start : Entry → Step × List Ret
  | .init => (.test, [])
  | .ask => (.s0, [])
  | .client g h => (.test, [.a1 g h])
  | .appl g h => (.test, [.b1 g h])

def S.enter (s : S) (t : Tid) (p : Step × List Ret) : S :=
  { (s.goto s.nextC (some p)).setTh t (some s.nextC :: s.th t) with nextC := s.nextC + 1 }

inductive Lbl where
  | go (t : Tid)
  | call (t : Tid) (k : Entry)
  /-- a signal arrives that monitor_signal_handler handles -/
  | signal (t : Tid) (sig : Nat)
  /-- a handler of the application or the client runs -/
  | interrupt (t : Tid)
  | unwind (t : Tid) (n : Nat)
  /-- fork; the child is followed -/
  | fork (t : Tid)
  /-- the application changes its environment -/
  | setenv (t : Tid) (e : Option Int)
  deriving DecidableEq, Repr

def next (f : Cfg) (s : S) (l : Lbl) : Option S :=
  match l with
  | .go t =>
    match s.th t with
    | some c :: rest =>
      match s.pc c with
      | some (p, k) => some (cstep f s t c rest k p)
      | none => none
    | none :: g :: rest => some (s.setTh t (g :: rest))
    | _ => none
  | .call t k =>
    match s.th t with
    | none :: _ => some (s.enter t k.start)
    | _ => none
  | .signal t g =>
    match s.th t with
    | [] => none
    | _ => if s.kernel g = .ours then some (s.enter t (.d1 g, [])) else none
  | .interrupt t =>
    match s.th t with
    | [] => none
    | l => some (s.setTh t (none :: l))
  | .unwind t n =>
    match s.th t with
    | none :: rest =>
      some { s.setTh t ((none :: rest).drop n) with
        pc := fun c => if some c ∈ (none :: rest).take n then none else s.pc c }
    | _ => none
  | .fork t =>
    match s.th t with
    | none :: rest =>
      some { s.log .fork with
          th := fun u => if u = t then none :: rest else []
          pc := fun c => if some c ∈ rest then s.pc c else none }
    | _ => none
  | .setenv t e =>
    match s.th t with
    | none :: _ => some { s with env := e }
    | _ => none

/-- Executions whose labels satisfy `A`, from any environment and any actions. -/
inductive ReachA (f : Cfg) (A : S → Lbl → Prop) : S → Prop where
  | init {orig : Nat → Hand} {env : Option Int} : ReachA f A { orig, env, kernel := fun g => .app (orig g) }
  | next {s s' : S} {l : Lbl} : ReachA f A s → A s l → next f s l = some s' → ReachA f A s'

abbrev Reach (f : Cfg) := ReachA f fun _ _ => True

end Libmonitor.SigI
