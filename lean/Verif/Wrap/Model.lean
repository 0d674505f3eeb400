/-!
# The wrappers of MPI functions

The 32 wrappers (`MPI_` and `PMPI_`; init, init_thread, finalize, comm_rank; C and three spellings
of Fortran names) keep the address of the real function in a static variable each, found by name
at the first call.  An interleaving machine of calls by any threads; real functions may
call other wrappers (as MPI_Init may call PMPI_Init), handlers may run at any point, and calls may be
left by cancellation or a long jump.

Simplifications: which callbacks are delivered is in Mpi and MpiC, here it is an input; the values
of size and rank are in MpiC; monitor_dlsym (see Dl) is one step with an arbitrary result.
-/

namespace Libmonitor.Wrap

abbrev Tid := Nat

inductive Fn where
  | init | initThread | finalize | commRank
  deriving DecidableEq, Repr

/-- C, and Fortran names with none, one, two underscores (files ..._f0, _f1, _f2). -/
inductive Lang where
  | c | f0 | f1 | f2
  deriving DecidableEq, Repr

/-- A wrapper. -/
structure W where
  pmpi : Bool
  fn : Fn
  lang : Lang
  deriving DecidableEq, Repr

/-- Names of real functions: C (MPI_Init, ...), Fortran (mpi_init followed by a number of underscores);
`pmpi`: with the letter P before. -/
inductive Sym where
  | C (pmpi : Bool) (fn : Fn)
  | F (pmpi : Bool) (fn : Fn) (underscores : Nat)
  | CSize (pmpi : Bool)
  | FSize (pmpi : Bool) (underscores : Nat)
  deriving DecidableEq, Repr

/-- The static variables: `real_mpi_init`, `real_mpi_init_thread`, `real_mpi_finalize`, `real_mpi_comm_rank`
and `real_mpi_comm_size` in the file of the function and language; `real_pmpi_...`
(pmpi.c:61-84). -/
inductive Var where
  | file (fn : Fn) (lang : Lang)
  | fileSize (lang : Lang)
  | pmpi (fn : Fn) (lang : Lang)
  | pmpiSize (lang : Lang)
  deriving DecidableEq, Repr

/-- The variable of a wrapper (there is no wrapper of comm_size). -/
def varOf : W → Var
  | ⟨false, .init, .c⟩ => .file .init .c -- mpi_init_c.c:27
  | ⟨false, .init, .f0⟩ => .file .init .f0 -- mpi_init_f0.c:28
  | ⟨false, .init, .f1⟩ => .file .init .f1 -- mpi_init_f1.c:28
  | ⟨false, .init, .f2⟩ => .file .init .f2 -- mpi_init_f2.c:28
  | ⟨false, .initThread, .c⟩ => .file .initThread .c -- mpi_init_thread_c.c:28
  | ⟨false, .initThread, .f0⟩ => .file .initThread .f0 -- mpi_init_thread_f0.c:28
  | ⟨false, .initThread, .f1⟩ => .file .initThread .f1 -- mpi_init_thread_f1.c:28
  | ⟨false, .initThread, .f2⟩ => .file .initThread .f2 -- mpi_init_thread_f2.c:28
  | ⟨false, .finalize, .c⟩ => .file .finalize .c -- mpi_final_c.c:27
  | ⟨false, .finalize, .f0⟩ => .file .finalize .f0 -- mpi_final_f0.c:27
  | ⟨false, .finalize, .f1⟩ => .file .finalize .f1 -- mpi_final_f1.c:27
  | ⟨false, .finalize, .f2⟩ => .file .finalize .f2 -- mpi_final_f2.c:27
  | ⟨false, .commRank, .c⟩ => .file .commRank .c -- mpi_comm_c.c:34
  | ⟨false, .commRank, .f0⟩ => .file .commRank .f0 -- mpi_comm_f0.c:33
  | ⟨false, .commRank, .f1⟩ => .file .commRank .f1 -- mpi_comm_f1.c:33
  | ⟨false, .commRank, .f2⟩ => .file .commRank .f2 -- mpi_comm_f2.c:33
  | ⟨true, .init, .c⟩ => .pmpi .init .c -- pmpi.c:98
  | ⟨true, .init, .f0⟩ => .pmpi .init .f0 -- pmpi.c:135
  | ⟨true, .init, .f1⟩ => .pmpi .init .f1 -- pmpi.c:141
  | ⟨true, .init, .f2⟩ => .pmpi .init .f2 -- pmpi.c:147
  | ⟨true, .initThread, .c⟩ => .pmpi .initThread .c -- pmpi.c:163
  | ⟨true, .initThread, .f0⟩ => .pmpi .initThread .f0 -- pmpi.c:200
  | ⟨true, .initThread, .f1⟩ => .pmpi .initThread .f1 -- pmpi.c:206
  | ⟨true, .initThread, .f2⟩ => .pmpi .initThread .f2 -- pmpi.c:212
  | ⟨true, .finalize, .c⟩ => .pmpi .finalize .c -- pmpi.c:227
  | ⟨true, .finalize, .f0⟩ => .pmpi .finalize .f0 -- pmpi.c:264
  | ⟨true, .finalize, .f1⟩ => .pmpi .finalize .f1 -- pmpi.c:270
  | ⟨true, .finalize, .f2⟩ => .pmpi .finalize .f2 -- pmpi.c:276
  | ⟨true, .commRank, .c⟩ => .pmpi .commRank .c -- pmpi.c:296
  | ⟨true, .commRank, .f0⟩ => .pmpi .commRank .f0 -- pmpi.c:320
  | ⟨true, .commRank, .f1⟩ => .pmpi .commRank .f1 -- pmpi.c:327
  | ⟨true, .commRank, .f2⟩ => .pmpi .commRank .f2 -- pmpi.c:334

/-- The name it looks up. -/
def symOf : W → Sym
  | ⟨false, .init, .c⟩ => .C false .init -- mpi_init_c.c:27
  | ⟨false, .init, .f0⟩ => .F false .init 0 -- mpi_init_f0.c:28
  | ⟨false, .init, .f1⟩ => .F false .init 1 -- mpi_init_f1.c:28
  | ⟨false, .init, .f2⟩ => .F false .init 2 -- mpi_init_f2.c:28
  | ⟨false, .initThread, .c⟩ => .C false .initThread -- mpi_init_thread_c.c:28
  | ⟨false, .initThread, .f0⟩ => .F false .initThread 0 -- mpi_init_thread_f0.c:28
  | ⟨false, .initThread, .f1⟩ => .F false .initThread 1 -- mpi_init_thread_f1.c:28
  | ⟨false, .initThread, .f2⟩ => .F false .initThread 2 -- mpi_init_thread_f2.c:28
  | ⟨false, .finalize, .c⟩ => .C false .finalize -- mpi_final_c.c:27
  | ⟨false, .finalize, .f0⟩ => .F false .finalize 0 -- mpi_final_f0.c:27
  | ⟨false, .finalize, .f1⟩ => .F false .finalize 1 -- mpi_final_f1.c:27
  | ⟨false, .finalize, .f2⟩ => .F false .finalize 2 -- mpi_final_f2.c:27
  | ⟨false, .commRank, .c⟩ => .C false .commRank -- mpi_comm_c.c:34
  | ⟨false, .commRank, .f0⟩ => .F false .commRank 0 -- mpi_comm_f0.c:33
  | ⟨false, .commRank, .f1⟩ => .F false .commRank 1 -- mpi_comm_f1.c:33
  | ⟨false, .commRank, .f2⟩ => .F false .commRank 2 -- mpi_comm_f2.c:33
  | ⟨true, .init, .c⟩ => .C true .init -- pmpi.c:98
  | ⟨true, .init, .f0⟩ => .F true .init 0 -- pmpi.c:135
  | ⟨true, .init, .f1⟩ => .F true .init 1 -- pmpi.c:141
  | ⟨true, .init, .f2⟩ => .F true .init 2 -- pmpi.c:147
  | ⟨true, .initThread, .c⟩ => .C true .initThread -- pmpi.c:163
  | ⟨true, .initThread, .f0⟩ => .F true .initThread 0 -- pmpi.c:200
  | ⟨true, .initThread, .f1⟩ => .F true .initThread 1 -- pmpi.c:206
  | ⟨true, .initThread, .f2⟩ => .F true .initThread 2 -- pmpi.c:212
  | ⟨true, .finalize, .c⟩ => .C true .finalize -- pmpi.c:227
  | ⟨true, .finalize, .f0⟩ => .F true .finalize 0 -- pmpi.c:264
  | ⟨true, .finalize, .f1⟩ => .F true .finalize 1 -- pmpi.c:270
  | ⟨true, .finalize, .f2⟩ => .F true .finalize 2 -- pmpi.c:276
  | ⟨true, .commRank, .c⟩ => .C true .commRank -- pmpi.c:296
  | ⟨true, .commRank, .f0⟩ => .F true .commRank 0 -- pmpi.c:320
  | ⟨true, .commRank, .f1⟩ => .F true .commRank 1 -- pmpi.c:327
  | ⟨true, .commRank, .f2⟩ => .F true .commRank 2 -- pmpi.c:334

/-- The variable for comm_size in the wrapper of comm_rank. -/
def sizeVar : Bool → Lang → Var
  | false, .c => .fileSize .c -- mpi_comm_c.c:33
  | false, .f0 => .fileSize .f0 -- mpi_comm_f0.c:32
  | false, .f1 => .fileSize .f1 -- mpi_comm_f1.c:32
  | false, .f2 => .fileSize .f2 -- mpi_comm_f2.c:32
  | true, .c => .pmpiSize .c -- pmpi.c:295
  | true, .f0 => .pmpiSize .f0 -- pmpi.c:319
  | true, .f1 => .pmpiSize .f1 -- pmpi.c:326
  | true, .f2 => .pmpiSize .f2 -- pmpi.c:333

def sizeSym : Bool → Lang → Sym
  | false, .c => .CSize false -- mpi_comm_c.c:33
  | false, .f0 => .FSize false 0 -- mpi_comm_f0.c:32
  | false, .f1 => .FSize false 1 -- mpi_comm_f1.c:32
  | false, .f2 => .FSize false 2 -- mpi_comm_f2.c:32
  | true, .c => .CSize true -- pmpi.c:295
  | true, .f0 => .FSize true 0 -- pmpi.c:319
  | true, .f1 => .FSize true 1 -- pmpi.c:326
  | true, .f2 => .FSize true 2 -- pmpi.c:333

/-- What the wrapper passes on of its parameters (mpi_init_c.c:33, mpi_init_f0.c:34 and the
corresponding lines of the other files). -/
def passed (w : W) (args : List Nat) : List Nat :=
  match w.fn, w.lang, args with
  | .init, .c, [argc, argv] => [argc, argv]
  | .initThread, .c, [argc, argv, required, provided] => [argc, argv, required, provided]
  | .finalize, .c, [] => []
  | .commRank, .c, [comm, rank] => [comm, rank]
  | .init, _, [ierror] => [ierror]
  | .initThread, _, [required, provided, ierror] => [required, provided, ierror]
  | .finalize, _, [ierror] => [ierror]
  | .commRank, _, [comm, rank, ierror] => [comm, rank, ierror]
  | _, _, _ => []

/-- Number of parameters (mpi_init_c.c:22, mpi_init_thread_c.c:22-23, ..., pmpi.c:51-59). -/
def arity : Fn → Lang → Nat
  | .init, .c => 2
  | .initThread, .c => 4
  | .finalize, .c => 0
  | .commRank, .c => 2
  | .init, _ => 1
  | .initThread, _ => 3
  | .finalize, _ => 1
  | .commRank, _ => 3

/-- Observable events.  Calls are numbered.  A wrapper is called; a name is looked up, with
result; comm_size is called for the wrapper of comm_rank, with its communicator; the real function is
called (through which address) and returns; the init-mpi callback of a C wrapper gets pointers;
the wrapper returns. -/
inductive Ev where
  | enter (id : Nat) (w : W) (args : List Nat)
  | lookup (sym : Sym) (addr : Nat)
  | size (id addr comm : Nat)
  | real (id addr : Nat) (args : List Nat)
  | realRet (id v : Nat)
  | initMpi (id argc argv : Nat)
  | ret (id v : Nat)
  deriving DecidableEq, Repr

/-- A call of a wrapper. -/
structure Call where
  id : Nat
  w : W
  args : List Nat
  deriving DecidableEq, Repr

inductive Frame where
  /-- foreign code: application, client, handlers -/
  | app
  /-- wrapper of comm_rank, MONITOR_GET_REAL_NAME of comm_size (common.h:127-131, 145-149; mpi_comm_c.c:33): test; look up and store -/
  | s0 (c : Call)
  | s1 (c : Call)
  /-- MONITOR_GET_REAL_NAME_WRAP (common.h:127-131, 150-154) -/
  | r0 (c : Call)
  | r1 (c : Call)
  /-- mpi_init_c.c:28-32, mpi_final_c.c:28-33: perhaps a callback -/
  | pre (c : Call)
  /-- mpi_comm_c.c:35, and foreign: comm_size -/
  | z (c : Call)
  | zBody (c : Call)
  /-- mpi_init_c.c:33, mpi_final_c.c:34, mpi_comm_c.c:36, and foreign: the real function -/
  | k (c : Call)
  | body (c : Call)
  /-- mpi_init_c.c:34-38, mpi_final_c.c:35-39: perhaps a callback; return -/
  | post (c : Call) (v : Nat)
  | fin (c : Call) (v : Nat)
  /-- the lookup failed: MONITOR_ERROR ends the process -/
  | err
  deriving DecidableEq, Repr

def Frame.foreign : Frame → Bool
  | .app | .zBody _ | .body _ => true
  | _ => false

/-- The static variables (0 is NULL); the number of the next call; history, latest first. -/
structure G where
  vars : Var → Nat := fun _ => 0
  nextId : Nat := 0
  tr : List (Tid × Ev) := []

structure S where
  g : G := {}
  th : Tid → List Frame := fun _ => [.app]

def G.log (g : G) (t : Tid) (e : Ev) : G := { g with tr := (t, e) :: g.tr }

def G.set (g : G) (x : Var) (v : Nat) : G := { g with vars := fun y => if y = x then v else g.vars y }

/-- One step (references at the constructors of `Frame`).  `v`: what foreign code returns, the
address found, or whether a callback is delivered.  In the statically linked case (`static`) the
variable is set each time, to an address that the linker found under the name. -/
def fstep (static : Bool) (g : G) (t : Tid) (v : Nat) : Frame → G × List Frame
  | .app => (g, [])
  | .s0 c => if static || g.vars (sizeVar c.w.pmpi c.w.lang) == 0 then (g, [.s1 c]) else (g, [.r0 c])
  | .s1 c =>
    if v = 0 then (g, [.err])
    else ((g.log t (.lookup (sizeSym c.w.pmpi c.w.lang) v)).set (sizeVar c.w.pmpi c.w.lang) v, [.r0 c])
  | .r0 c => if static || g.vars (varOf c.w) == 0 then (g, [.r1 c]) else (g, [.pre c])
  | .r1 c =>
    if v = 0 then (g, [.err])
    else ((g.log t (.lookup (symOf c.w) v)).set (varOf c.w) v, [.pre c])
  | .pre c =>
    if c.w.fn = .commRank then (g, [.z c]) else if v = 0 then (g, [.k c]) else (g, [.app, .k c])
  | .z c =>
    (g.log t (.size c.id (g.vars (sizeVar c.w.pmpi c.w.lang)) (c.args.headD 0)), [.zBody c])
  | .zBody c => (g, [.k c])
  | .k c => (g.log t (.real c.id (g.vars (varOf c.w)) (passed c.w c.args)), [.body c])
  | .body c => (g.log t (.realRet c.id v), [.post c v])
  | .post c r =>
    if c.w.fn = .commRank || v = 0 then (g, [.fin c r])
    else match c.w.fn, c.w.lang, c.args with
      | .init, .c, argc :: argv :: _ => (g.log t (.initMpi c.id argc argv), [.app, .fin c r])
      | .initThread, .c, argc :: argv :: _ => (g.log t (.initMpi c.id argc argv), [.app, .fin c r])
      | _, _, _ => (g, [.app, .fin c r])
  | .fin c r => (g.log t (.ret c.id r), [])
  | .err => (g, [.err])

/-- `go v`: next step; a call of a wrapper; `unwind n`: n frames are left by
cancellation or a long jump. -/
inductive Inp where
  | go (v : Nat)
  | call (w : W) (args : List Nat)
  | interrupt
  | unwind (n : Nat)
  | fork
  deriving DecidableEq, Repr

structure Lbl where
  t : Tid
  i : Inp
  deriving DecidableEq, Repr

/-- One step of the machine. -/
def next (static : Bool) (s : S) (l : Lbl) : Option S :=
  let put (g : G) (st : List Frame) : S := { g := g, th := fun u => if u = l.t then st else s.th u }
  match s.th l.t with
  | [] => none
  | f :: rest =>
    match l.i with
    | .go v => let r := fstep static s.g l.t v f; some (put r.1 (r.2 ++ rest))
    | .call w args =>
      if f.foreign && args.length == arity w.fn w.lang then
        let c : Call := ⟨s.g.nextId, w, args⟩
        some (put { s.g.log l.t (.enter c.id w args) with nextId := s.g.nextId + 1 }
          ((if w.fn = .commRank then .s0 c else .r0 c) :: f :: rest))
      else none
    | .interrupt => some (put s.g (.app :: f :: rest))
    | .unwind n => some (put s.g ((f :: rest).drop n))
    -- the child: only this thread is left
    | .fork =>
      if f.foreign then
        some { g := s.g, th := fun u => if u = l.t then f :: rest else [] }
      else none

/-- Reachable states. -/
inductive Reach (static : Bool) : S → Prop where
  | init : Reach static {}
  | step {s s' l} : Reach static s → next static s l = some s' → Reach static s'

/-- Runs a schedule. -/
def run (static : Bool) (s : S) : List Lbl → Option S
  | [] => some s
  | l :: ls => (next static s l).bind fun s' => run static s' ls

theorem reach_run {static : Bool} {s s' : S} {ls : List Lbl} (h : run static s ls = some s')
    (hr : Reach static s) : Reach static s' := by
  induction ls generalizing s with
  | nil => simp only [run, Option.some.injEq] at h; exact h ▸ hr
  | cons l ls ih =>
    simp only [run] at h
    cases hn : next static s l with
    | none => simp [hn] at h
    | some s1 => rw [hn] at h; exact ih h (.step hr hn)

theorem exists_of_run {static : Bool} {p : S → Bool} {ls : List Lbl}
    (h : (match run static {} ls with | some s => p s | none => false) = true) :
    ∃ s, Reach static s ∧ p s = true := by
  cases hr : run static {} ls with
  | none => simp [hr] at h
  | some s => rw [hr] at h; exact ⟨s, reach_run hr .init, h⟩

end Libmonitor.Wrap
