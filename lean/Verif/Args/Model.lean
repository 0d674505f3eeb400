/-!
# The arguments of main

monitor_main keeps a copy of its arguments in three global variables, from which the callbacks
monitor_init_process and (for Fortran) monitor_init_mpi are served; the application's main gets
the originals.  An interleaving machine: threads may exist before main, each access to one of the
variables is one step.

Simplifications: values of argc and of the pointers are numbers, 0 is the initial value; what
the pointers point at is not modelled; the callbacks of the exit path are in Proc, here only the
status is followed; a wrapper of the Fortran mpi_init is modelled from where it has found
that the call is the outermost one (see Mpi).
-/

namespace Libmonitor.Args

abbrev Tid := Nat

/-- The arguments of main. -/
structure Arg where
  argc : Nat
  argv : Nat
  envp : Nat
  deriving DecidableEq, Repr

/-- Observable events: callbacks with the values they are given, main, the client changes the
count through the pointer it was given; a function of the exit family is called (or main
returns), the real one is called, each with its status; the process is a new child from here. -/
inductive Ev where
  | initProcess (argc argv : Nat)
  | initMpi (argc argv : Nat)
  | wrapMain (a : Arg)
  | main (a : Arg)
  | clientSet (argc : Nat)
  | exitCall (st : Nat)
  | quit (st : Nat)
  | forked
  deriving DecidableEq, Repr

inductive Frame where
  /-- foreign code: application, client, handlers, threads -/
  | app
  /-- foreign: the main thread before main (library constructors, monitor_start_main_init) -/
  | pre (a : Arg)
  /-- monitor_main, main.c:511; 512; 513; 517 -/
  | m0 (a : Arg)
  | m1 (a : Arg)
  | m2 (a : Arg)
  | m3 (a : Arg)
  /-- main.c:518 and foreign: monitor_at_main -/
  | m4 (a : Arg)
  | atMain (a : Arg)
  /-- static case, main.c:528, and foreign: monitor_wrap_main -/
  | m5 (a : Arg)
  | wrap (a : Arg)
  /-- main.c:530, and foreign: the application's main -/
  | m6 (a : Arg)
  | mainApp
  /-- main.c:533-536: the status is returned to libc, which calls the real exit with it -/
  | m7 (st : Nat)
  /-- monitor_begin_process_fcn, main.c:263-275; 284: the pointer is read; the call, in which the
  client finds the count where the other pointer says -/
  | b0 (isFork : Bool)
  | b1
  | b2 (argv : Nat)
  /-- mpi_init_f0.c:37 (monitor_get_main_args, main.c:356-368): count, pointer; 38 -/
  | f0
  | f1 (argc : Nat)
  | f2 (argc argv : Nat)
  /-- exit, _exit, _Exit: main.c:590-633 -/
  | x (st : Nat)
  deriving DecidableEq, Repr

def Frame.foreign : Frame → Bool
  | .app | .pre _ | .atMain _ | .wrap _ | .mainApp => true
  | _ => false

/-- monitor_argc, monitor_argv, monitor_envp (main.c:141-143); monitor_init_process_called (main.c:258);
the history, latest first. -/
structure G where
  argc : Nat := 0
  argv : Nat := 0
  envp : Nat := 0
  begun : Bool := false
  tr : List (Tid × Ev) := []
  deriving DecidableEq, Repr

structure S where
  g : G := {}
  th : Tid → List Frame

/-- The process starts with arguments `a`; all threads but the main thread run foreign code from
their start (threads not yet created do nothing). -/
def S.first (a : Arg) : S := { th := fun t => if t = 0 then [.pre a] else [.app] }

/-- What foreign code may call.  `begin`: what begins the process (monitor_initialize,
pthread_create); `setArgc`: the client stores through the pointer it got from init-process. -/
inductive Api where
  | begin | fortranInit | exit (st : Nat) | setArgc (k : Nat)
  deriving DecidableEq, Repr

/-- `go v`: next step (foreign code returns, with `v`). -/
inductive Inp where
  | go (v : Nat)
  | call (a : Api)
  | interrupt
  | fork
  deriving DecidableEq, Repr

structure Lbl where
  t : Tid
  i : Inp
  deriving DecidableEq, Repr

def G.log (g : G) (t : Tid) (e : Ev) : G := { g with tr := (t, e) :: g.tr }

/-- One step (references at the constructors of `Frame`); `static`: the library is linked
statically. -/
def fstep (static : Bool) (g : G) (t : Tid) (v : Nat) : Frame → G × List Frame
  | .app => (g, [])
  | .pre a => (g, [.m0 a])
  | .m0 a => ({ g with argc := a.argc }, [.m1 a])
  | .m1 a => ({ g with argv := a.argv }, [.m2 a])
  | .m2 a => ({ g with envp := a.envp }, [.m3 a])
  | .m3 a => (g, [.b0 false, .m4 a])
  | .m4 a => (g, [.atMain a])
  | .atMain a => (g, [if static then .m5 a else .m6 a])
  | .m5 a => (g.log t (.wrapMain ⟨g.argc, g.argv, g.envp⟩), [.wrap a])
  | .wrap a => (g, [.m6 a])
  | .m6 a => (g.log t (.main a), [.mainApp])
  | .mainApp => (g.log t (.exitCall v), [.m7 v])
  | .m7 st => (g.log t (.quit st), [])
  | .b0 isFork => if g.begun && !isFork then (g, []) else ({ g with begun := true }, [.b1])
  | .b1 => (g, [.b2 g.argv])
  | .b2 p => (g.log t (.initProcess g.argc p), [.app])
  | .f0 => (g, [.f1 g.argc])
  | .f1 n => (g, [.f2 n g.argv])
  | .f2 n p => (g.log t (.initMpi n p), [.app])
  | .x st => (g.log t (.quit st), [])

/-- One step of the machine. -/
def next (static : Bool) (s : S) (l : Lbl) : Option S :=
  let put (g : G) (st : List Frame) : S := { g := g, th := fun u => if u = l.t then st else s.th u }
  match s.th l.t with
  | [] => none
  | f :: rest =>
    match l.i with
    | .go v => let r := fstep static s.g l.t v f; some (put r.1 (r.2 ++ rest))
    | .call .begin => if f.foreign then some (put s.g (.b0 false :: f :: rest)) else none
    | .call .fortranInit => if f.foreign then some (put s.g (.f0 :: f :: rest)) else none
    | .call (.exit st) =>
      if f.foreign then some (put (s.g.log l.t (.exitCall st)) (.x st :: f :: rest)) else none
    | .call (.setArgc k) =>
      if f.foreign && s.g.begun then
        some (put ({ s.g with argc := k }.log l.t (.clientSet k)) (f :: rest))
      else none
    | .interrupt => some (put s.g (.app :: f :: rest))
    -- fork.c:314-330, the child: only this thread is left
    | .fork =>
      if f.foreign then
        some { g := s.g.log l.t .forked,
               th := fun u => if u = l.t then .b0 true :: f :: rest else [] }
      else none

/-- States reachable by steps that satisfy `A`. -/
inductive ReachA (A : S → Lbl → Prop) (static : Bool) (a : Arg) : S → Prop where
  | init : ReachA A static a (.first a)
  | step {s s' l} : ReachA A static a s → A s l → next static s l = some s' →
      ReachA A static a s'

abbrev Reach := ReachA fun _ _ => True

/-- Runs a schedule. -/
def run (A : S → Lbl → Prop) [∀ s l, Decidable (A s l)] (static : Bool) (s : S) :
    List Lbl → Option S
  | [] => some s
  | l :: ls => if A s l then (next static s l).bind fun s' => run A static s' ls else none

theorem reachA_run {A : S → Lbl → Prop} [∀ s l, Decidable (A s l)] {static : Bool} {a : Arg}
    {s s' : S} {ls : List Lbl} (h : run A static s ls = some s') (hr : ReachA A static a s) :
    ReachA A static a s' := by
  induction ls generalizing s with
  | nil => simp only [run, Option.some.injEq] at h; exact h ▸ hr
  | cons l ls ih =>
    simp only [run] at h
    split at h
    · rename_i hA
      cases hn : next static s l with
      | none => simp [hn] at h
      | some s1 => rw [hn] at h; exact ih h (.step hr hA hn)
    · simp at h

theorem exists_of_run {A : S → Lbl → Prop} [∀ s l, Decidable (A s l)] {static : Bool} {a : Arg}
    {p : S → Bool} {ls : List Lbl}
    (h : (match run A static (.first a) ls with | some s => p s | none => false) = true) :
    ∃ s, ReachA A static a s ∧ p s = true := by
  cases hr : run A static (.first a) ls with
  | none => simp [hr] at h
  | some s => rw [hr] at h; exact ⟨s, reachA_run hr .init, h⟩

end Libmonitor.Args
