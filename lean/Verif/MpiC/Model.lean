/-!
# The MPI wrappers as an interleaving machine

Any number of threads run the wrappers of mpi_init_*.c, mpi_final_*.c, mpi_comm_*.c and pmpi.c;
signal handlers interrupt them between any two accesses to the variables of mpi.c; the real
MPI functions may fail; a thread may be cancelled or leave a call by longjmp.

The bodies of all init wrappers are alike up to the real function they call, which is an
arbitrary number here; likewise finalize and comm_rank.  Each access to a static variable of
mpi.c is one step.  Left out: weak memory and compiler reordering; overflow of the counters.
-/

namespace Libmonitor.MpiC

abbrev Tid := Nat

/-- Initialisation or finalisation. -/
inductive Kind where
  | init | fini
  deriving DecidableEq, Repr

/-- Observable events.  `first`/`second` are the client callbacks before and after the real
function (pre_init and init_mpi; fini_mpi and post_fini); `publish` is the debug message of
monitor_set_size_rank (mpi.c:93); `known ok` is the end of a rank query of the application that
worked or failed; `ub` a NULL dereference. -/
inductive Ev where
  | enter (k : Kind) (w : Nat)
  | first (k : Kind)
  | real (k : Kind) (w : Nat)
  | realRet (k : Kind) (w : Nat)
  | second (k : Kind)
  | leave (k : Kind) (w : Nat)
  | known (ok : Bool) (size rank : Int)
  | clientSet (size rank : Int)
  | publish (size rank : Int)
  | sizeIs (v : Int)
  | rankIs (v : Int)
  | ub
  deriving DecidableEq, Repr

/-- What remains to be done of a call. -/
inductive Frame where
  /-- code of the application, the client or the real MPI library -/
  | app
  /-- monitor_mpi_init_count (mpi.c:63-70), monitor_mpi_fini_count (mpi.c:72-77), called with
  1 (`up`) or -1: load, store, compare with the maximum, store the maximum, return. -/
  | load (k : Kind) (w : Nat) (up : Bool)
  | store (k : Kind) (w : Nat) (up : Bool) (v : Int)
  | cmp (w : Nat) (up : Bool)
  | setMax (w : Nat) (up : Bool) (c : Int)
  | ret (k : Kind) (w : Nat) (up : Bool)
  /-- mpi_init_c.c:28-31, mpi_final_c.c:28-32: the first callback if `count == 1` -/
  | first (k : Kind) (w : Nat) (c : Int)
  /-- mpi_init_c.c:32, mpi_final_c.c:33: the real function -/
  | real (k : Kind) (w : Nat) (c : Int)
  | rret (k : Kind) (w : Nat) (c : Int)
  /-- mpi_init_c.c:33-36, mpi_final_c.c:34-37: the second callback if `count == 1` -/
  | second (k : Kind) (w : Nat) (c : Int)
  /-- mpi_comm_c.c:35: the size query; `null` if the application passed a NULL rank pointer -/
  | cr0 (w : Nat) (null : Bool)
  /-- mpi_comm_c.c:36: the rank query -/
  | cr1 (w : Nat) (null : Bool) (size : Option Int)
  /-- mpi_comm_c.c:37: reading the rank; `old` is what the memory held before the query -/
  | cr2 (null : Bool) (size rank : Option Int) (old : Int)
  /-- monitor_set_mpi_size_rank (mpi.c:110-119): the three tests, and the final store -/
  | sm0 (size rank : Int)
  | sm1 (size rank : Int)
  | sm2 (size rank : Int)
  | sm3
  /-- monitor_set_size_rank (mpi.c:88-99): the test and the three stores -/
  | ss0 (size rank : Int)
  | ss1 (size rank : Int)
  | ss2 (rank : Int)
  | ss3
  deriving DecidableEq, Repr

/-- The static variables of mpi.c:46-50, 91, 113, and the history, latest first. -/
structure G where
  initCount : Int := 0
  finiCount : Int := 0
  maxInit : Int := 0
  size : Int := -1
  rank : Int := -1
  firstSet : Bool := true
  firstMpi : Bool := true
  tr : List (Tid × Ev) := []
  deriving DecidableEq, Repr

structure S where
  g : G := {}
  th : Tid → List Frame := fun _ => [.app]

/-- The calls that application, client and MPI library make. -/
inductive Api where
  | init (w : Nat) | fini (w : Nat)
  | commRank (w : Nat) (null : Bool)
  | setSizeRank (size rank : Int)
  | getSize | getRank
  deriving DecidableEq, Repr

/-- What a thread does next.  `go a b`: the next step of the innermost call; `a` is the value a
real size or rank query stores (`none`: it fails and stores nothing) and `b` what the memory
for the rank held before.  `call`, `back`: code outside of the wrappers calls one, or returns.
`interrupt`: a signal handler starts.  `unwind`: cancellation or longjmp out of all calls. -/
inductive Inp where
  | go (a : Option Int) (b : Int)
  | call (a : Api)
  | back
  | interrupt
  | unwind
  deriving DecidableEq, Repr

structure Lbl where
  t : Tid
  i : Inp
  deriving DecidableEq, Repr

def G.count (g : G) : Kind → Int
  | .init => g.initCount
  | .fini => g.finiCount

def G.setCount (g : G) (v : Int) : Kind → G
  | .init => { g with initCount := v }
  | .fini => { g with finiCount := v }

def G.log (g : G) (t : Tid) (e : Ev) : G := { g with tr := (t, e) :: g.tr }

def delta (up : Bool) : Int := if up then 1 else -1

/-- One step of the innermost call (references at the constructors of `Frame`). -/
def fstep (g : G) (t : Tid) (a : Option Int) (b : Int) : Frame → Option (G × List Frame)
  | .app => none
  | .load k w up => some (g, [.store k w up (g.count k)])
  | .store k w up v =>
    some (g.setCount (v + delta up) k, [match k with | .init => .cmp w up | .fini => .ret .fini w up])
  | .cmp w up =>
    some (g, [if g.initCount > g.maxInit then .setMax w up g.initCount else .ret .init w up])
  | .setMax w up c => some ({ g with maxInit := c }, [.ret .init w up])
  | .ret k w up =>
    if up then some (g, [.first k w (g.count k)]) else some (g.log t (.leave k w), [])
  | .first k w c =>
    if c = 1 then some (g.log t (.first k), [.app, .real k w c]) else some (g, [.real k w c])
  | .real k w c => some (g.log t (.real k w), [.app, .rret k w c])
  | .rret k w c => some (g.log t (.realRet k w), [.second k w c])
  | .second k w c =>
    if c = 1 then some (g.log t (.second k), [.app, .load k w false])
    else some (g, [.load k w false])
  | .cr0 w null => some (g, [.app, .cr1 w null a])
  | .cr1 _ null size => some (g, [.app, .cr2 null size a b])
  | .cr2 null size rank old =>
    if null then some (g.log t .ub, [])
    else
      let sz := size.getD (-1)
      let rk := rank.getD old
      some (g.log t (.known (size.isSome && rank.isSome) sz rk), [.sm0 sz rk])
  | .sm0 size rank => some (g, if g.firstMpi then [.sm1 size rank] else [])
  | .sm1 size rank => some (g, if g.initCount = 0 then [.sm2 size rank] else [])
  | .sm2 size rank => some (g, if g.maxInit > 0 then [.ss0 size rank, .sm3] else [])
  | .sm3 => some ({ g with firstMpi := false }, [])
  | .ss0 size rank =>
    if g.firstSet then some (g.log t (.publish size rank), [.ss1 size rank]) else some (g, [])
  | .ss1 size rank => some ({ g with size := size }, [.ss2 rank])
  | .ss2 rank => some ({ g with rank := rank }, [.ss3])
  | .ss3 => some ({ g with firstSet := false }, [])

/-- Entry to a wrapper or getter. -/
def enter (g : G) (t : Tid) : Api → G × List Frame
  | .init w => (g.log t (.enter .init w), [.load .init w true])
  | .fini w => (g.log t (.enter .fini w), [.load .fini w true])
  | .commRank w null => (g, [.cr0 w null])
  | .setSizeRank size rank => (g.log t (.clientSet size rank), [.ss0 size rank])
  /- mpi.c:121-125 -/
  | .getSize => (g.log t (.sizeIs g.size), [])
  /- mpi.c:127-131 -/
  | .getRank => (g.log t (.rankIs g.rank), [])

/-- One step of the machine. -/
def next (s : S) (l : Lbl) : Option S :=
  let put (r : G × List Frame) : S :=
    { g := r.1, th := fun u => if u = l.t then r.2 else s.th u }
  match l.i, s.th l.t with
  | .go a b, f :: rest => (fstep s.g l.t a b f).map fun r => put (r.1, r.2 ++ rest)
  | .call a, .app :: rest =>
    let r := enter s.g l.t a
    some (put (r.1, r.2 ++ .app :: rest))
  | .back, .app :: f :: rest => some (put (s.g, f :: rest))
  | .interrupt, st => some (put (s.g, .app :: st))
  | .unwind, _ => some (put (s.g, [.app]))
  | _, _ => none

/-- Reachable states by steps that satisfy `A`. -/
inductive ReachA (A : S → Lbl → Prop) : S → Prop where
  | init : ReachA A {}
  | step {s s' l} : ReachA A s → A s l → next s l = some s' → ReachA A s'

abbrev Reach := ReachA fun _ _ => True

/-- Runs a schedule. -/
def run (A : S → Lbl → Prop) [∀ s l, Decidable (A s l)] (s : S) : List Lbl → Option S
  | [] => some s
  | l :: ls => if A s l then (next s l).bind fun s' => run A s' ls else none

theorem reachA_run {A : S → Lbl → Prop} [∀ s l, Decidable (A s l)] {s s' : S} {ls : List Lbl}
    (h : run A s ls = some s') (hr : ReachA A s) : ReachA A s' := by
  induction ls generalizing s with
  | nil => simp only [run, Option.some.injEq] at h; exact h ▸ hr
  | cons l ls ih =>
    simp only [run] at h
    split at h
    · rename_i hA
      cases hn : next s l with
      | none => simp [hn] at h
      | some s1 => rw [hn] at h; exact ih h (.step hr hA hn)
    · simp at h

theorem exists_of_run {A : S → Lbl → Prop} [∀ s l, Decidable (A s l)] {p : S → Bool}
    {ls : List Lbl} (h : (match run A {} ls with | some s => p s | none => false) = true) :
    ∃ s, ReachA A s ∧ p s = true := by
  cases hr : run A {} ls with
  | none => simp [hr] at h
  | some s => rw [hr] at h; exact ⟨s, reachA_run hr .init, h⟩

end Libmonitor.MpiC
