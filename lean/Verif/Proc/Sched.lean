import Verif.Proc.Inv
/-!
# Schedules used in examples and counterexamples
-/

namespace Libmonitor.Proc

/-- `k` steps of thread `t`; external calls succeed, callbacks return 0. -/
def T (t k : Nat) : List Lbl := List.replicate k (.step t (.go true 0))

/-- One step of `t` whose external call fails (or: loops once more, is the last thread). -/
def F (t : Nat) : List Lbl := [.step t (.go false 0)]

/-- A callback of `t` returns `v`. -/
def V (t v : Nat) : List Lbl := [.step t (.go true v)]

def C (t : Nat) (a : Api) : List Lbl := [.step t (.call a)]

def D (t : Nat) : List Lbl := [.step t .deliver]

def I (t : Nat) : List Lbl := [.step t .interrupt]

def U (t : Nat) : List Lbl := [.step t .unwind]

/-- The main thread runs up to the application's main. -/
def toMain : List Lbl := T 0 9

/-- `t` creates a thread: the process's first, and a later one (start routine `st`, argument
`ar`, value `d` from pre-create). -/
def create1 (t st ar d : Nat) : List Lbl := C t (.create st ar) ++ T t 10 ++ V t d ++ T t 7

def createN (t st ar d : Nat) : List Lbl := C t (.create st ar) ++ T t 6 ++ V t d ++ T t 7

/-- A new thread runs into its start routine; init-thread returns `v`. -/
def begin (t v : Nat) : List Lbl := T t 4 ++ V t v ++ T t 2

/-- Main and two created threads (records 1 and 2) are running. -/
def three : List Lbl :=
  toMain ++ create1 0 70 71 9 ++ begin 1 5 ++ createN 0 80 81 10 ++ begin 2 6

/-- Thread 1 calls exit and begins the shootdown while main calls exit, too, and has to wait;
the other threads receive the signal and run fini-thread; thread 1 delivers fini-process and
both arrive in the real exit. -/
def threeExit : List Lbl :=
  three ++ C 1 .exit ++ T 1 3 ++ C 0 .exit ++ T 0 2 ++ T 1 12 ++ D 0 ++ T 0 3 ++ D 2 ++ T 2 3 ++
    F 1 ++ T 1 6 ++ T 1 4 ++ T 1 4 ++ T 0 3

/-- Thread 1 finishes its start routine and its cleanup routine; it is left in the destructors
of its thread-specific data. -/
def oneDying : List Lbl := three ++ T 1 6

/-- ... and main creates thread 3, which gets thread 1's record. -/
def recordReused : List Lbl := oneDying ++ createN 0 90 91 11 ++ begin 3 7

end Libmonitor.Proc
