import Verif.Fork.Model

/-!
# The environment of an unmonitored program, in programs with several threads

monitor_real_execve (fork.c:635-647) with monitor_copy_environ (fork.c:153-199), called from any number
of threads and from signal handlers.  monitor_copy_environ builds the new environment in one static array
(fork.c:111), which all calls share, unless the environment is too large for it; then it maps memory of its
own.  The child of monitor_real_system (fork.c:579-580) does the same in a process of its own, which is
`fork` and then `call` here.

Simplifications: the arguments are not NULL (otherwise nothing is done, fork.c:640-645); the array that the
caller gives does not change during the call; own memory has as many cells as are asked for, without rounding
up to pages (see C32); a string does not change.
-/

namespace Libmonitor.EnvC

open Fork (Str Ptr contains ldPreload initEnvironSize)

abbrev Tid := Nat
abbrev Call := Nat

/-- Events.  Stores are recorded if they go to the static array. -/
inductive Ev where
  | enter (c : Call) (env : List Str)
  | store (c : Call) (i : Nat) (v : Ptr)
  /-- the new program starts, with this environment -/
  | exec (c : Call) (env : List Str)
  /-- exec fails, and monitor_real_execve returns −1 -/
  | fail (c : Call)
  /-- MONITOR_ERROR: mmap has failed (fork.c:182-185) -/
  | error (c : Call)
  /-- a cell outside of the array is used -/
  | bad (c : Call)
  /-- here a child begins; what is before is the parent's history -/
  | fork
  deriving DecidableEq

/-- Where a call is.  `own`: it has mapped memory of its own. -/
inductive Pc where
  | none
  /-- fork.c:161-186, the strings are counted and the array is chosen -/
  | count
  /-- fork.c:190-195: `rest` is still to be copied, `n` cells are filled -/
  | copy (own : Bool) (rest : List Str) (n : Nat)
  /-- fork.c:196 -/
  | term (own : Bool) (n : Nat)
  /-- in the kernel's execve: the strings of the new array are counted, `i` so far -/
  | cnt (own : Bool) (i : Nat)
  /-- in the kernel's execve: the strings are copied, the last one first; `i` are still to come -/
  | grab (own : Bool) (i : Nat) (acc : List Str)
  /-- in the kernel's execve: all is copied -/
  | ready (acc : List Str)
  | done
  deriving DecidableEq

/-- A frame of a thread: a call, or code of the application or the client (`none`). -/
abbrev Slot := Option Call

structure S where
  /-- newenv_array (fork.c:111), NULL at first -/
  arr : Nat → Ptr := fun _ => Option.none
  /-- own memory of each call -/
  own : Call → Nat → Ptr := fun _ _ => Option.none
  env : Call → List Str := fun _ => []
  pc : Call → Pc := fun _ => .none
  th : Tid → List Slot := fun _ => [Option.none]
  nextC : Nat := 0
  /-- the process has ended, or runs another program -/
  dead : Bool := false
  /-- latest first -/
  tr : List Ev := []

def S.log (s : S) (e : Ev) : S := { s with tr := e :: s.tr }
def S.goto (s : S) (c : Call) (p : Pc) : S := { s with pc := fun d => if d = c then p else s.pc d }
def S.setTh (s : S) (t : Tid) (l : List Slot) : S := { s with th := fun u => if u = t then l else s.th u }
def S.die (s : S) (e : Ev) : S := { s.log e with dead := true }

/-- The environment needs own memory (fork.c:163-167). -/
def large (env : List Str) : Bool := decide (env.length + 2 > initEnvironSize)

/-- Number of cells of the array that call `c` uses (fork.c:111, 173-181). -/
def S.cells (s : S) (c : Call) (own : Bool) : Nat :=
  if own then (s.env c).length + 2 else initEnvironSize

/-- What is in cell `i` of that array. -/
def S.cell (s : S) (c : Call) (own : Bool) (i : Nat) : Ptr := if own then s.own c i else s.arr i

/-- Store into cell `i` of that array. -/
def S.put (s : S) (c : Call) (own : Bool) (i : Nat) (v : Ptr) : S :=
  if own then { s with own := fun d j => if d = c ∧ j = i then v else s.own d j }
  else { s.log (.store c i v) with arr := fun j => if j = i then v else s.arr j }

/-- One step of call `c`, which is the innermost frame of thread `t`; `ok`: mmap or exec succeeds. -/
def cstep (s : S) (t : Tid) (c : Call) (rest : List Slot) (ok : Bool) : Pc → Option S
  | .none | .done => none
  | .count =>
    if large (s.env c) then
      if ok then some (s.goto c (.copy true (s.env c) 0)) else some (s.die (.error c))
    else some (s.goto c (.copy false (s.env c) 0))
  | .copy own [] n => some (s.goto c (.term own n))
  | .copy own (x :: l) n =>
    if contains ldPreload x then some (s.goto c (.copy own l n))
    else if n < s.cells c own then some ((s.put c own n (some x)).goto c (.copy own l (n + 1)))
    else some (s.die (.bad c))
  | .term own n =>
    if n < s.cells c own then some ((s.put c own n none).goto c (.cnt own 0)) else some (s.die (.bad c))
  | .cnt own i =>
    if i < s.cells c own then
      match s.cell c own i with
      | Option.none => some (s.goto c (.grab own i []))
      | some _ => some (s.goto c (.cnt own (i + 1)))
    else some (s.die (.bad c))
  | .grab _ 0 acc => some (s.goto c (.ready acc))
  | .grab own (i + 1) acc =>
    if i < s.cells c own then
      match s.cell c own i with
      -- a NULL where a string was counted: EFAULT
      | Option.none => some (((s.log (.fail c)).goto c .done).setTh t rest)
      | some x => some (s.goto c (.grab own i (x :: acc)))
    else some (s.die (.bad c))
  | .ready acc =>
    if ok then some (s.die (.exec c acc))
    else some (((s.log (.fail c)).goto c .done).setTh t rest)

/-- What happens next. -/
inductive Lbl where
  /-- thread `t` goes on: a call, or the return of a signal handler -/
  | go (t : Tid) (ok : Bool)
  /-- monitor_real_execve -/
  | call (t : Tid) (env : List Str)
  /-- a signal handler is called -/
  | interrupt (t : Tid)
  /-- `n` frames are left by longjmp, pthread_exit or cancellation -/
  | unwind (t : Tid) (n : Nat)
  /-- fork; the child is followed from here on, only the calling thread is left in it -/
  | fork (t : Tid)

def next (s : S) (l : Lbl) : Option S :=
  if s.dead then none
  else match l with
    | .go t ok =>
      match s.th t with
      | some c :: rest => cstep s t c rest ok (s.pc c)
      | Option.none :: f :: rest => some (s.setTh t (f :: rest))
      | _ => none
    | .call t env =>
      match s.th t with
      | Option.none :: rest =>
        let c := s.nextC
        some { (((s.log (.enter c env)).goto c .count).setTh t (some c :: Option.none :: rest)) with
          nextC := c + 1, env := fun d => if d = c then env else s.env d }
      | _ => none
    | .interrupt t =>
      match s.th t with
      | [] => none
      | l => some (s.setTh t (Option.none :: l))
    | .unwind t n =>
      match s.th t with
      | Option.none :: rest => some (s.setTh t ((Option.none :: rest).drop n))
      | _ => none
    | .fork t =>
      match s.th t with
      | Option.none :: rest =>
        some { s.log .fork with th := fun u => if u = t then Option.none :: rest else [] }
      | _ => none

inductive Reach : S → Prop where
  | init : Reach {}
  | next {s s' : S} {l : Lbl} : Reach s → next s l = some s' → Reach s'

end Libmonitor.EnvC
