/-!
# The lock and the flags on machines with store buffers

spinlock.h and atomic.h on a machine that delays stores: what a thread stores goes to a buffer of its own
first and reaches memory later.  The other models are sequentially consistent; here is the part of the
library that has to make that true.

The machines differ in three points:

* `fifo`: stores leave the buffer in order (x86), or in any order that keeps the stores to one location
  in order and does not pass a barrier (PowerPC, Arm);
* `fenced`: spinlock_unlock has a barrier (`lwsync`) in front of its store, spinlock.h:77-79 (PowerPC only);
* `drain`: compare_and_swap waits for the buffer (a locked instruction on x86, the GNU builtin).

Simplifications: loads are done in order (x86; elsewhere what the isync at the end of spinlock_lock and
spinlock_trylock, or the GNU builtin, sees to for the loads inside; loads of flags outside of the lock are
better ordered here than on these machines); a store reaches all other threads at once (on PowerPC the
machine is weaker); what the compiler reorders is not modelled (val and the flags are volatile, but other
data is not, and on x86 and Arm spinlock_unlock is no barrier for the compiler).
-/

namespace Libmonitor.Wm

abbrev Tid := Nat
abbrev Loc := Nat
abbrev Val := Nat

/-- The word of the lock; all other locations are data. -/
def LOCK : Loc := 0

structure Arch where
  fifo : Bool
  fenced : Bool
  drain : Bool

/-- atomic.h:59-72 (lock; cmpxchgq), or the GNU builtin (atomic.h:51-57) -/
def x86 : Arch := { fifo := true, fenced := false, drain := true }
/-- atomic.h:89-169, spinlock.h:69-71, 77-79, 92-94 -/
def power : Arch := { fifo := false, fenced := true, drain := false }
/-- atomic.h:51-57: the GNU builtin, and no barrier in spinlock_unlock -/
def arm : Arch := { fifo := false, fenced := false, drain := true }

/-- A delayed store, with the number of the store (for the statements only), or a barrier. -/
inductive Ent where
  | st (a : Loc) (v : Val) (n : Nat)
  | mark
  deriving DecidableEq, Repr

/-- Where a thread is with the lock. -/
inductive PC where
  | out
  /-- spinlock_lock: at the test (spinlock.h:62-63), at the compare and swap (spinlock.h:64) -/
  | test
  | cas
  | inside
  /-- spinlock_unlock: at the store (spinlock.h:81) -/
  | rel
  deriving DecidableEq, Repr

inductive Ev where
  | acq (t : Tid)
  | rel (t : Tid)
  /-- value and number of the store it comes from (0: the initial value) -/
  | load (t : Tid) (a : Loc) (v : Val) (n : Nat)
  | store (t : Tid) (a : Loc) (v : Val) (n : Nat)
  deriving DecidableEq, Repr

/-- Memory holds values and the numbers of their stores; buffers are oldest first; history latest first. -/
structure S where
  m0 : Loc → Val
  mem : Loc → Val × Nat
  buf : Tid → List Ent := fun _ => []
  pc : Tid → PC := fun _ => .out
  clock : Nat := 0
  tr : List Ev := []

def start (m : Loc → Val) : S :=
  { m0 := m, mem := fun a => if a = LOCK then (0, 0) else (m a, 0) }

/-- The latest delayed store to `a`. -/
def pend : List Ent → Loc → Option (Val × Nat)
  | [], _ => none
  | .mark :: b, a => pend b a
  | .st c v n :: b, a =>
    match pend b a with
    | some x => some x
    | none => if c = a then some (v, n) else none

/-- What thread `t` reads. -/
def S.view (s : S) (t : Tid) (a : Loc) : Val × Nat := (pend (s.buf t) a).getD (s.mem a)

def S.setPc (s : S) (t : Tid) (p : PC) : S := { s with pc := fun u => if u = t then p else s.pc u }
def S.setBuf (s : S) (t : Tid) (b : List Ent) : S := { s with buf := fun u => if u = t then b else s.buf u }
def S.setMem (s : S) (a : Loc) (x : Val × Nat) : S := { s with mem := fun c => if c = a then x else s.mem c }

/-- Whether the compare and swap of `t` can be done now. -/
def canCas (A : Arch) (s : S) (t : Tid) : Bool :=
  if A.drain then (s.buf t).isEmpty else (pend (s.buf t) LOCK).isNone

/-- Whether the entry behind `pre` can leave the buffer. -/
def canLeave (A : Arch) (pre : List Ent) : Ent → Bool
  | .mark => pre.isEmpty
  | .st a _ _ =>
    if A.fifo then pre.isEmpty
    else pre.all fun e => match e with
      | .mark => false
      | .st c _ _ => c != a

inductive Lbl where
  | lock (t : Tid)
  | test (t : Tid)
  | cas (t : Tid)
  | trylock (t : Tid)
  | unlock (t : Tid)
  | rel (t : Tid)
  | load (t : Tid) (a : Loc)
  | store (t : Tid) (a : Loc) (v : Val)
  | leave (t : Tid) (i : Nat)
  deriving DecidableEq, Repr

/-- `prot`: the locations that belong to the lock; they are used inside only. -/
def next (A : Arch) (prot : Loc → Bool) (s : S) : Lbl → Option S
  | .lock t => if s.pc t = .out then some (s.setPc t .test) else none
  -- spinlock.h:62-63
  | .test t =>
    if s.pc t = .test then some (if (s.view t LOCK).1 = 0 then s.setPc t .cas else s) else none
  -- spinlock.h:64-66
  | .cas t =>
    if s.pc t = .cas && canCas A s t then
      if (s.mem LOCK).1 = 0 then
        some { (s.setMem LOCK (1, 0)).setPc t .inside with tr := .acq t :: s.tr }
      else some (s.setPc t .test)
    else none
  -- spinlock.h:88-99
  | .trylock t =>
    if s.pc t = .out && canCas A s t then
      if (s.mem LOCK).1 = 0 then
        some { (s.setMem LOCK (1, 0)).setPc t .inside with tr := .acq t :: s.tr }
      else some s
    else none
  -- spinlock.h:77-79
  | .unlock t =>
    if s.pc t = .inside then
      some ((if A.fenced then s.setBuf t (s.buf t ++ [.mark]) else s).setPc t .rel)
    else none
  -- spinlock.h:81
  | .rel t =>
    if s.pc t = .rel then
      some { (s.setBuf t (s.buf t ++ [.st LOCK 0 0])).setPc t .out with tr := .rel t :: s.tr }
    else none
  | .load t a =>
    if a ≠ LOCK ∧ (prot a = true → s.pc t = .inside) then
      some { s with tr := .load t a (s.view t a).1 (s.view t a).2 :: s.tr }
    else none
  | .store t a v =>
    if a ≠ LOCK ∧ (prot a = true → s.pc t = .inside) then
      some { s.setBuf t (s.buf t ++ [.st a v (s.clock + 1)]) with
        clock := s.clock + 1, tr := .store t a v (s.clock + 1) :: s.tr }
    else none
  | .leave t i =>
    match (s.buf t).drop i with
    | [] => none
    | e :: post =>
      if canLeave A ((s.buf t).take i) e then
        let s := s.setBuf t ((s.buf t).take i ++ post)
        some (match e with
          | .mark => s
          | .st a v n => s.setMem a (v, n))
      else none

inductive ReachA (A : Arch) (prot : Loc → Bool) (P : S → Lbl → Prop) : S → Prop where
  | init (m : Loc → Val) : ReachA A prot P (start m)
  | next {s s' : S} {l : Lbl} : ReachA A prot P s → P s l → next A prot s l = some s' → ReachA A prot P s'

abbrev Reach (A : Arch) (prot : Loc → Bool) := ReachA A prot fun _ _ => True

end Libmonitor.Wm
