/-!
# Program start

The call of the application's main: __libc_start_main (dynamic case, with the two signatures of x86 and
PowerPC) or __wrap_main (static case), the variable real_main, and what monitor_get_addr_main says about it.
An interleaving machine: library constructors may run, make threads and call the library before the program is
started.

Simplifications: addresses are numbers, 0 is NULL; finding the real functions is in Dl and Names; beginning
and ending the process is in Proc, the copy of the arguments in Args, here these steps of monitor_main are
left out; libc's start function runs foreign code and calls main with arguments of its own choice; an
assignment to real_main and a memcpy are one step.
-/

namespace Libmonitor.Start

abbrev Tid := Nat
abbrev Addr := Nat

/-- How the library was built: MONITOR_STATIC, and if not, MONITOR_START_MAIN_PPC. -/
inductive Build where
  | x86 | ppc | static
  deriving DecidableEq, Repr

/-- The address of monitor_main (main.c:504). -/
def MONITOR_MAIN : Addr := 1
/-- Static case: the address of __real_main (main.c:123). -/
def REAL_MAIN : Addr := 2
/-- PowerPC: the address of new_stinfo (main.c:98). -/
def NEW_STINFO : Addr := 3

/-- Parameters of __libc_start_main: x86 (main.c:105-112), PowerPC (main.c:89-96; `info` is what `stinfo` points at). -/
inductive Par where
  | x86 (main argc argv init fini rtldFini stackEnd : Nat)
  | ppc (argc argv envp auxp rtldFini stinfo stackEnd : Nat) (info : List Nat)
  deriving DecidableEq, Repr

/-- Observable events: __libc_start_main is called; the callback monitor_start_main_init; libc's start function is
called; libc calls monitor_main (or __wrap_main) with these arguments; monitor_main calls the application's main
at this address; libc calls another function instead of monitor_main; monitor_get_addr_main is called, with
result; the process is a new child from here. -/
inductive Ev where
  | start (p : Par)
  | startInit
  | realStart (p : Par)
  | libcMain (args : List Nat)
  | main (addr : Addr) (args : List Nat)
  | bypass (addr : Addr) (args : List Nat)
  | query (addr : Addr)
  | forked
  deriving DecidableEq, Repr

inductive Frame where
  /-- foreign code: application, client, handlers, threads, constructors -/
  | app
  /-- __libc_start_main: main.c:561, 572 -/
  | s0 (p : Par)
  /-- PowerPC: main.c:562; 563 -/
  | c0 (p : Par)
  | c1 (p : Par)
  /-- main.c:566, 574 -/
  | s1 (p : Par)
  /-- main.c:568-569, 576-577 -/
  | s2 (p : Par)
  /-- foreign: libc's start function, before it calls main; what it was given for main (PowerPC: where to
  read it) -/
  | libc (p : Par)
  /-- static case, foreign: libc before it calls main -/
  | boot
  /-- __wrap_main: main.c:543, 546, 548 -/
  | w0 (args : List Nat)
  | w1 (args : List Nat)
  | w2 (args : List Nat)
  /-- monitor_main: main.c:509, 530, and foreign: the application's main -/
  | m0 (args : List Nat)
  | m1 (args : List Nat)
  | mainApp
  /-- monitor_normal_init: main.c:192, common.h:157-160; static case: main.c:204 -/
  | n0
  | n1
  /-- monitor_get_addr_main: main.c:487 -/
  | q
  deriving DecidableEq, Repr

def Frame.foreign : Frame → Bool
  | .app | .libc _ | .boot | .mainApp => true
  | _ => false

/-- real_main (main.c:135); new_stinfo (main.c:98); monitor_has_run_normal_init (main.c:192); history, latest first;
`ub`: something was read behind the end of what stinfo points at. -/
structure G where
  realMain : Addr := 0
  info : List Nat := [0, 0, 0, 0]
  initDone : Bool := false
  ub : Bool := false
  tr : List (Tid × Ev) := []
  deriving DecidableEq, Repr

structure S where
  g : G := {}
  th : Tid → List Frame

/-- Static case: thread 0 will call main.  Dynamic case: foreign code calls __libc_start_main. -/
def S.first (b : Build) : S :=
  { th := fun t => if t = 0 ∧ b = .static then [.boot] else [.app] }

def G.log (g : G) (t : Tid) (e : Ev) : G := { g with tr := (t, e) :: g.tr }

/-- The function main that was passed: stinfo[1] on PowerPC (main.c:561). -/
def Par.main : Par → Addr
  | .x86 m .. => m
  | .ppc _ _ _ _ _ _ _ w => w.getD 1 0

/-- What `stinfo` points at has less than `n` words. -/
def Par.short (n : Nat) : Par → Bool
  | .x86 .. => false
  | .ppc _ _ _ _ _ _ _ w => decide (w.length < n)

/-- The parameters passed on to libc's start function (main.c:568-569, 576-577); the last argument is what new_stinfo holds. -/
def Par.passOn (w : List Nat) : Par → Par
  | .x86 _ argc argv init fini rtldFini stackEnd => .x86 MONITOR_MAIN argc argv init fini rtldFini stackEnd
  | .ppc argc argv envp auxp rtldFini _ stackEnd _ => .ppc argc argv envp auxp rtldFini NEW_STINFO stackEnd w

/-- Which function libc's start function calls: the one it was given; on PowerPC it reads the words it was
given the address of. -/
def libcCalls (g : G) : Par → Addr
  | .x86 m .. => m
  | .ppc _ _ _ _ _ p _ w => if p = NEW_STINFO then g.info.getD 1 0 else w.getD 1 0

/-- One step (references at the constructors of `Frame`).  `v`: the arguments that libc passes to main. -/
def fstep (b : Build) (g : G) (t : Tid) (v : List Nat) : Frame → G × List Frame
  | .app => (g, [])
  | .s0 p =>
    ({ g with realMain := p.main, ub := g.ub || p.short 2 }, [match p with | .x86 .. => .s1 p | .ppc .. => .c0 p])
  | .c0 p =>
    match p with
    | .x86 .. => (g, [.s1 p])
    | .ppc _ _ _ _ _ _ _ w => ({ g with info := w.take 4, ub := g.ub || p.short 4 }, [.c1 p])
  | .c1 p => ({ g with info := g.info.set 1 MONITOR_MAIN }, [.s1 p])
  | .s1 p => (g.log t .startInit, [.app, .s2 p])
  | .s2 p => (g.log t (.realStart (p.passOn g.info)), [.libc (p.passOn g.info)])
  | .libc p =>
    if libcCalls g p = MONITOR_MAIN then (g.log t (.libcMain v), [.m0 v])
    else (g.log t (.bypass (libcCalls g p) v), [.app])
  | .boot => (g.log t (.libcMain v), [.w0 v])
  | .w0 a => (g, [.n0, .w1 a])
  | .w1 a => ({ g with realMain := REAL_MAIN }, [.w2 a])
  | .w2 a => (g.log t .startInit, [.app, .m0 a])
  | .m0 a => (g, [.n0, .m1 a])
  | .m1 a => (g.log t (.main g.realMain a), [.mainApp])
  | .mainApp => (g, [])
  | .n0 => if g.initDone then (g, []) else ({ g with initDone := true }, [.n1])
  | .n1 => (if b = .static then { g with realMain := REAL_MAIN } else g, [])
  | .q => (g.log t (.query g.realMain), [])

/-- What foreign code may call; `enter`: any function that starts with monitor_normal_init. -/
inductive Inp where
  | go (v : List Nat)
  | start (p : Par)
  | enter
  | query
  | interrupt
  | fork
  deriving DecidableEq, Repr

structure Lbl where
  t : Tid
  i : Inp
  deriving DecidableEq, Repr

/-- The signature that the library was built for. -/
def fits : Build → Par → Bool
  | .x86, .x86 .. => true
  | .ppc, .ppc .. => true
  | _, _ => false

/-- One step of the machine. -/
def next (b : Build) (s : S) (l : Lbl) : Option S :=
  let put (g : G) (st : List Frame) : S := { g := g, th := fun u => if u = l.t then st else s.th u }
  match s.th l.t with
  | [] => none
  | f :: rest =>
    match l.i with
    | .go v => let r := fstep b s.g l.t v f; some (put r.1 (r.2 ++ rest))
    | .start p =>
      if f.foreign && fits b p then some (put (s.g.log l.t (.start p)) (.s0 p :: f :: rest)) else none
    | .enter => if f.foreign then some (put s.g (.n0 :: f :: rest)) else none
    | .query => if f.foreign then some (put s.g (.q :: f :: rest)) else none
    | .interrupt => some (put s.g (.app :: f :: rest))
    -- the child: only this thread is left
    | .fork =>
      if f.foreign then
        some { g := s.g.log l.t .forked, th := fun u => if u = l.t then f :: rest else [] }
      else none

/-- States reachable by steps that satisfy `A`. -/
inductive ReachA (A : S → Lbl → Prop) (b : Build) : S → Prop where
  | init : ReachA A b (.first b)
  | step {s s' l} : ReachA A b s → A s l → next b s l = some s' → ReachA A b s'

abbrev Reach := ReachA fun _ _ => True

/-- Runs a schedule. -/
def run (A : S → Lbl → Prop) [∀ s l, Decidable (A s l)] (b : Build) (s : S) : List Lbl → Option S
  | [] => some s
  | l :: ls => if A s l then (next b s l).bind fun s' => run A b s' ls else none

theorem reachA_run {A : S → Lbl → Prop} [∀ s l, Decidable (A s l)] {b : Build}
    {s s' : S} {ls : List Lbl} (h : run A b s ls = some s') (hr : ReachA A b s) : ReachA A b s' := by
  induction ls generalizing s with
  | nil => simp only [run, Option.some.injEq] at h; exact h ▸ hr
  | cons l ls ih =>
    simp only [run] at h
    split at h
    · rename_i hA
      cases hn : next b s l with
      | none => simp [hn] at h
      | some s1 => rw [hn] at h; exact ih h (.step hr hA hn)
    · simp at h

theorem exists_of_run {A : S → Lbl → Prop} [∀ s l, Decidable (A s l)] {b : Build}
    {p : S → Bool} {ls : List Lbl}
    (h : (match run A b (.first b) ls with | some s => p s | none => false) = true) :
    ∃ s, ReachA A b s ∧ p s = true := by
  cases hr : run A b (.first b) ls with
  | none => simp [hr] at h
  | some s => rw [hr] at h; exact ⟨s, reachA_run hr .init, h⟩

end Libmonitor.Start
