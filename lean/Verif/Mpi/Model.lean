/-!
# Model of `src/mpi.c`, `src/mpi_*.c` and `src/pmpi.c`

All init wrappers (`MPI_Init`, `MPI_Init_thread`, `PMPI_Init`, `PMPI_Init_thread` and the
three Fortran manglings of each) have the same body around a different real function, and
likewise the finalize and comm_rank wrappers.  They are told apart by an arbitrary number here.
* init: mpi_init_c.c:21-41, mpi_init_f0.c:21-41, mpi_init_f1.c:21-41, mpi_init_f2.c:21-41,
  mpi_init_thread_c.c:21-42, mpi_init_thread_f0.c:21-41, mpi_init_thread_f1.c:21-41,
  mpi_init_thread_f2.c:21-41, pmpi.c:92-148, pmpi.c:156-213;
* finalize: mpi_final_c.c:21-42, mpi_final_f0.c:21-40, mpi_final_f1.c:21-40, mpi_final_f2.c:21-40,
  pmpi.c:221-277;
* comm_rank: mpi_comm_c.c:27-40, mpi_comm_f0.c:26-37, mpi_comm_f1.c:26-37, mpi_comm_f2.c:26-37,
  pmpi.c:289-335.

What the real MPI function and the client callbacks do (in particular which wrappers they
call) is an input: it is part of the call tree.
-/

namespace Libmonitor.Mpi

/-- The static variables of mpi.c:46-50 and the two `static int first`
(mpi.c:90, 112).  Counters are unbounded integers; the nesting depth is assumed to fit an
`int`. -/
structure St where
  initCount : Int := 0
  finiCount : Int := 0
  maxInit : Int := 0
  size : Int := -1
  rank : Int := -1
  firstSet : Bool := true
  firstMpi : Bool := true
  deriving DecidableEq, Repr

/-- A call of one of the wrapped functions or of `monitor_set_size_rank`, with the calls
made while it runs.  `pre` and `post` are the calls the client makes from inside the two
callbacks, should they be delivered; `body` is what the real function calls. -/
inductive Call where
  | init (w : Nat) (pre body post : List Call)
  | fini (w : Nat) (pre body post : List Call)
  | commRank (w : Nat) (body : List Call) (size rank : Int)
  | setSizeRank (size rank : Int)

/-- Observable events.  `initEnter`/`initLeave` are the entry to and return from an init
wrapper, `realInit`/`realInitRet` the call of the real function inside it. -/
inductive Ev where
  | initEnter (w : Nat)
  | preInit
  | realInit (w : Nat)
  | realInitRet (w : Nat)
  | initMpi
  | initLeave (w : Nat)
  | finiEnter (w : Nat)
  | finiMpi
  | realFini (w : Nat)
  | realFiniRet (w : Nat)
  | postFini
  | finiLeave (w : Nat)
  | rankKnown (size rank : Int)
  | clientSet (size rank : Int)
  deriving DecidableEq, Repr

/-- `monitor_mpi_init_count` (mpi.c:63-70); the returned value is the new counter. -/
def initCount (inc : Int) (s : St) : St :=
  let c := s.initCount + inc
  { s with initCount := c, maxInit := if c > s.maxInit then c else s.maxInit }

/-- `monitor_mpi_fini_count` (mpi.c:72-77). -/
def finiCount (inc : Int) (s : St) : St :=
  { s with finiCount := s.finiCount + inc }

/-- `monitor_set_size_rank` (mpi.c:88-99). -/
def setSizeRank (size rank : Int) (s : St) : St :=
  if s.firstSet then { s with size := size, rank := rank, firstSet := false } else s

/-- `monitor_set_mpi_size_rank` (mpi.c:110-119). -/
def setMpiSizeRank (size rank : Int) (s : St) : St :=
  if s.firstMpi && (s.initCount == 0) && (s.maxInit > 0) then
    { setSizeRank size rank s with firstMpi := false }
  else s

mutual
/-- One wrapper call: the bodies of mpi_init_c.c:22-41 (and the other init wrappers),
mpi_final_c.c:22-42 (and the others), mpi_comm_c.c:28-40 (and the others). -/
def run (s : St) : Call → St × List Ev
  | .init w pre body post =>
    let s := initCount 1 s
    let count := s.initCount
    let (s, e1) := if count == 1 then
        let (s, e) := runList s pre
        (s, Ev.preInit :: e)
      else (s, [])
    let (s, e2) := runList s body
    let (s, e3) := if count == 1 then
        let (s, e) := runList s post
        (s, Ev.initMpi :: e)
      else (s, [])
    (initCount (-1) s,
      Ev.initEnter w :: e1 ++ (Ev.realInit w :: e2 ++ [Ev.realInitRet w]) ++ e3 ++ [Ev.initLeave w])
  | .fini w pre body post =>
    let s := finiCount 1 s
    let count := s.finiCount
    let (s, e1) := if count == 1 then
        let (s, e) := runList s pre
        (s, Ev.finiMpi :: e)
      else (s, [])
    let (s, e2) := runList s body
    let (s, e3) := if count == 1 then
        let (s, e) := runList s post
        (s, Ev.postFini :: e)
      else (s, [])
    (finiCount (-1) s,
      Ev.finiEnter w :: e1 ++ (Ev.realFini w :: e2 ++ [Ev.realFiniRet w]) ++ e3 ++ [Ev.finiLeave w])
  | .commRank _ body size rank =>
    let (s, e) := runList s body
    (setMpiSizeRank size rank s, e ++ [Ev.rankKnown size rank])
  | .setSizeRank size rank => (setSizeRank size rank s, [Ev.clientSet size rank])

/-- A sequence of calls. -/
def runList (s : St) : List Call → St × List Ev
  | [] => (s, [])
  | c :: cs =>
    let (s, e1) := run s c
    let (s, e2) := runList s cs
    (s, e1 ++ e2)
end

end Libmonitor.Mpi
