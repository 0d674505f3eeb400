/-!
# spinlock.h and atomic.h: the thread-list lock

Any number of threads; each thread is a stack of frames because signal handlers interrupt
code that holds the lock or is about to take it.  Both ways to implement
`compare_and_swap` are modelled: one atomic instruction, or a load-linked /
store-conditional loop.
-/

namespace Libmonitor.Lock

abbrev Tid := Nat

/-- Who called `compare_and_swap(&lock->val, 0, 1)`: spinlock_lock (spinlock.h:58-73) or
spinlock_trylock (spinlock.h:89-99). -/
inductive Kind where
  | lock
  | try
  deriving DecidableEq, Repr

/-- Program counters.
* `app`: any code outside of the lock functions, not holding the lock in this frame;
* `spin`: spinlock.h:61-62, `while (lock->val != 0);`
* `cas k`: about to execute the atomic instruction or the load-linked
  (atomic.h:64-78, 148-160);
* `sc k`: between load-linked (which returned 0) and store-conditional (atomic.h:154-155);
* `crit`: the frame holds the lock, before spinlock_unlock (spinlock.h:75-83). -/
inductive Pc where
  | app
  | spin
  | cas (k : Kind)
  | sc (k : Kind)
  | crit
  deriving DecidableEq, Repr

/-- Implementation of compare_and_swap: GNU builtin, x86, i386, ia64 (atomic.h:52-90,
162-180) or powerpc (atomic.h:92-160). -/
inductive Arch where
  | atomic
  | llsc
  deriving DecidableEq, Repr

/-- `val` is the lock word (spinlock.h:45-47), `rsv t` the load-linked reservation of the
processor thread `t` runs on, `stk t` the frames of thread `t`, the running one first;
no frames: the thread does not exist. `tryRes t` is the last result of trylock. -/
structure St where
  val : Int := 0
  rsv : Tid → Bool := fun _ => false
  stk : Tid → List Pc
  tryRes : Tid → Option Int := fun _ => none

/-- What the scheduled thread does.
* `callLock`/`callTry`: application code enters spinlock_lock/spinlock_trylock;
* `run`: the lock code executes its next shared access; the holder executes
  spinlock_unlock;
* `signal`: a handler interrupts the thread; `ret`: the innermost handler returns.
  The kernel drops the reservation both times (on powerpc Linux the interrupt return path
  executes a dummy store-conditional);
* `lose`: the reservation is lost for any other reason;
* `spawn u`: a new thread `u`; `exit`: the thread ends, only outside of the lock code;
* `unwind n`: foreign code leaves n frames, and the lock functions in the frame below, by a long jump out of a
  handler, cancellation or pthread_exit in a handler; it goes on outside of the lock functions, or the thread ends;
* `fork`: continue with the child process: all other threads are gone. -/
inductive Act where
  | callLock
  | callTry
  | run
  | signal
  | ret
  | lose
  | spawn (u : Tid)
  | exit
  | unwind (n : Nat)
  | fork
  deriving DecidableEq, Repr

/-- Frames that hold the lock may vanish. -/
def Act.leaves : Act → Bool
  | .unwind _ | .fork => true
  | _ => false

def setStk (s : St) (t : Tid) (l : List Pc) : St :=
  { s with stk := fun u => if u = t then l else s.stk u }

/-- A store to the lock word: all reservations on it are lost. -/
def store (s : St) (v : Int) : St := { s with val := v, rsv := fun _ => false }

def setRsv (s : St) (t : Tid) (b : Bool) : St :=
  { s with rsv := fun u => if u = t then b else s.rsv u }

/-- compare_and_swap returned something other than 0: spinlock_lock spins again
(spinlock.h:60-66), spinlock_trylock returns -1 (spinlock.h:98). -/
def failed (s : St) (t : Tid) (k : Kind) (rest : List Pc) : St :=
  match k with
  | .lock => setStk s t (.spin :: rest)
  | .try => { setStk s t (.app :: rest) with
      tryRes := fun u => if u = t then some (-1) else s.tryRes u }

/-- compare_and_swap stored 1 and returned 0: the lock is taken
(spinlock.h:64-65 and 92-96, trylock returns 0). -/
def acquired (s : St) (t : Tid) (k : Kind) (rest : List Pc) : St :=
  match k with
  | .lock => setStk s t (.crit :: rest)
  | .try => { setStk s t (.crit :: rest) with
      tryRes := fun u => if u = t then some 0 else s.tryRes u }

/-- One shared access of the lock code of thread `t` (spinlock.h:58-99, atomic.h:52-180). -/
def runPc (arch : Arch) (s : St) (t : Tid) (pc : Pc) (rest : List Pc) : Option St :=
  match pc with
  | .app => none
  | .spin => some (if s.val = 0 then setStk s t (.cas .lock :: rest) else s)
  | .cas k =>
    match arch with
    | .atomic =>
      if s.val = 0 then some (acquired (store s 1) t k rest) else some (failed s t k rest)
    | .llsc =>
      if s.val = 0 then some (setStk (setRsv s t true) t (.sc k :: rest))
      else some (failed (setRsv s t true) t k rest)
  | .sc k =>
    if s.rsv t then some (acquired (store s 1) t k rest)
    else some (setStk s t (.cas k :: rest))
  | .crit => some (setStk (store s 0) t (.app :: rest))

/-- The innermost frame goes on outside of the lock functions. -/
def left : List Pc → List Pc
  | [] => []
  | _ :: rest => .app :: rest

/-- One step of thread `t`. -/
def step (arch : Arch) (s : St) (t : Tid) (a : Act) : Option St :=
  match s.stk t with
  | [] => none
  | pc :: rest =>
    match a with
    | .callLock => if pc = .app then some (setStk s t (.spin :: rest)) else none
    | .callTry => if pc = .app then some (setStk s t (.cas .try :: rest)) else none
    | .run => runPc arch s t pc rest
    | .signal => some (setRsv (setStk s t (.app :: pc :: rest)) t false)
    | .ret => if pc = .app ∧ rest ≠ [] then some (setRsv (setStk s t rest) t false) else none
    | .lose => some (setRsv s t false)
    | .spawn u => if s.stk u = [] then some (setRsv (setStk s u [.app]) u false) else none
    | .exit => if pc = .app ∧ rest = [] then some (setStk s t []) else none
    | .unwind n =>
      if pc = .app then some (setRsv (setStk s t (left ((pc :: rest).drop n))) t false) else none
    | .fork => some { s with stk := fun u => if u = t then s.stk t else [],
                             rsv := fun _ => false }

/-- Start of the process: one thread, lock free (pthread.c:185). -/
def start : St := { stk := fun t => if t = 0 then [.app] else [] }

/-- Executions: any interleaving. -/
def exec (arch : Arch) : List (Tid × Act) → St → Option St
  | [], s => some s
  | (t, a) :: l, s => (step arch s t a).bind (exec arch l)

/-- Number of frames of thread `t` that hold the lock. -/
def held (s : St) (t : Tid) : Nat := (s.stk t).count .crit

end Libmonitor.Lock
