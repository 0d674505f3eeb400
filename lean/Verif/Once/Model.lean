/-!
# One-time initialisation (MONITOR_RUN_ONCE)

monitor_early_init, monitor_normal_init, monitor_begin_library_fcn and monitor_begin_process_fcn
(main.c:168-287) with the guard MONITOR_RUN_ONCE (common.h:161-164), which tests a flag and sets it in two
steps, called from any number of threads, signal handlers and callbacks.  The Proc model takes the guard as
one step and the first two functions as done at the start; here they are in full.

Simplifications: of the record of the main thread only the magic number and the user data are modelled; the
rest of monitor_normal_init (function pointers, see Names; signals, see Sig) is one step; compare_and_swap is
one step; all threads are there from the beginning (the application may have made them before libmonitor
was initialised, or the client with the real functions).
-/

namespace Libmonitor.Once

abbrev Tid := Nat
abbrev Call := Nat
abbrev Data := Nat

/-- The guards: main.c:171, 192, 230. -/
inductive Guard where
  | early | normal | lib
  deriving DecidableEq, Repr

/-- What a call does next. -/
inductive Step where
  /-- common.h:163, 164 -/
  | test (x : Guard)
  | set (x : Guard)
  /-- main.c:179; 180-182 -/
  | e1 | e2
  /-- main.c:197-218, behind monitor_early_init -/
  | n2
  /-- main.c:236, behind monitor_normal_init; 237 -/
  | l2 | l3
  /-- main.c:263, behind monitor_normal_init; 268-269; 277-278; 283-284, behind monitor_begin_library_fcn;
  the assignment there -/
  | p1 | p2 | p3 | p4 | p5
  deriving DecidableEq, Repr

/-- Where a function returns to: monitor_normal_init (n2), monitor_begin_library_fcn (l2),
monitor_begin_process_fcn (p1, p4). -/
inductive Ret where
  | n2 | l2 | p1 | p4
  deriving DecidableEq, Repr

/-- Events. -/
inductive Ev where
  /-- the body of a guarded function begins; ends -/
  | ran (x : Guard) (c : Call)
  | fin (x : Guard) (c : Call)
  /-- a guarded function returns at once -/
  | skip (x : Guard) (c : Call)
  | initLibrary (c : Call)
  | initLibraryRet (c : Call)
  | initProcess (c : Call) (d : Data)
  /-- the user data of the process is set: to the value of monitor_init_process, or in a forked child to
  that of monitor_pre_fork -/
  | data (c : Call) (d : Data)
  /-- here a child begins; what is before is the parent's history -/
  | fork
  deriving DecidableEq, Repr

/-- A frame of a thread: a call of this library, or code of the application or the client (`none`). -/
abbrev Slot := Option Call

structure S where
  /-- monitor_has_run_... -/
  run : Guard → Bool := fun _ => false
  /-- monitor_init_process_called (main.c:258) -/
  called : Bool := false
  /-- tn_magic and tn_user_data of monitor_main_tn (main.c:155) -/
  magic : Bool := false
  data : Data := 0
  /-- for each call in progress where it is; its arguments -/
  pc : Call → Option (Step × List Ret) := fun _ => none
  isFork : Call → Bool := fun _ => false
  arg : Call → Data := fun _ => 0
  th : Tid → List Slot := fun _ => [none]
  nextC : Nat := 0
  /-- latest first -/
  tr : List Ev := []

def S.log (s : S) (e : Ev) : S := { s with tr := e :: s.tr }
def S.goto (s : S) (c : Call) (p : Option (Step × List Ret)) : S :=
  { s with pc := fun d => if d = c then p else s.pc d }
def S.setTh (s : S) (t : Tid) (l : List Slot) : S := { s with th := fun u => if u = t then l else s.th u }

/-- A function returns. -/
def S.ret (s : S) (t : Tid) (c : Call) (rest : List Slot) : List Ret → S
  | [] => (s.goto c none).setTh t rest
  | .n2 :: k => s.goto c (some (.n2, k))
  | .l2 :: k => s.goto c (some (.l2, k))
  | .p1 :: k => s.goto c (some (.p1, k))
  | .p4 :: k => s.goto c (some (.p4, k))

/-- Behind the guard: where the body begins. -/
def body : Guard → List Ret → Step × List Ret
  | .early, k => (.e1, k)
  | .normal, k => (.test .early, .n2 :: k)
  | .lib, k => (.test .normal, .l2 :: k)

/-- One step of call `c`, the innermost frame of thread `t`; `v` is the value that the callback has
returned. -/
def cstep (s : S) (t : Tid) (c : Call) (rest : List Slot) (v : Data) (k : List Ret) : Step → S
  | .test x => if s.run x then (s.log (.skip x c)).ret t c rest k else s.goto c (some (.set x, k))
  | .set x =>
    { (s.log (.ran x c)).goto c (some (body x k)) with run := fun y => if y = x then true else s.run y }
  | .e1 => { s.goto c (some (.e2, k)) with magic := false, data := 0 }
  | .e2 => ({ s.log (.fin .early c) with magic := true }).ret t c rest k
  | .n2 => (s.log (.fin .normal c)).ret t c rest k
  | .l2 => ((s.log (.initLibrary c)).goto c (some (.l3, k))).setTh t (none :: some c :: rest)
  | .l3 => ((s.log (.initLibraryRet c)).log (.fin .lib c)).ret t c rest k
  | .p1 =>
    let s' := { s with called := true }
    if s.isFork c then s'.goto c (some (.p2, k))
    else if s.called then s'.ret t c rest k
    else s'.goto c (some (.p3, k))
  | .p2 => { (s.log (.data c (s.arg c))).goto c (some (.p3, k)) with data := s.arg c }
  | .p3 => s.goto c (some (.test .lib, .p4 :: k))
  | .p4 => ((s.log (.initProcess c (s.arg c))).goto c (some (.p5, k))).setTh t (none :: some c :: rest)
  | .p5 => { (s.log (.data c v)).ret t c rest k with data := v }

/-- Who calls: the library's constructor (main.c:644-649); a wrapper that only needs monitor_early_init
(fork.c:129, pthread.c:290) or monitor_normal_init (main.c:436, 450, 509, 543, 593, 610, 626); a function that
begins the process (main.c:425, 517, pthread.c:1098). -/
inductive Entry where
  | ctor | early | normal | process
  deriving DecidableEq, Repr

def Entry.start : Entry → Step × List Ret
  | .ctor => (.test .lib, [])
  | .early => (.test .early, [])
  | .normal => (.test .normal, [])
  | .process => (.test .normal, [.p1])

/-- A call begins. -/
def S.enter (s : S) (t : Tid) (p : Step × List Ret) (isFork : Bool) (d : Data) : S :=
  { (s.goto s.nextC (some p)).setTh t (some s.nextC :: s.th t) with
    nextC := s.nextC + 1
    isFork := fun e => if e = s.nextC then isFork else s.isFork e
    arg := fun e => if e = s.nextC then d else s.arg e }

/-- What happens next. -/
inductive Lbl where
  /-- thread `t` goes on -/
  | go (t : Tid) (v : Data)
  /-- code of the application or the client calls -/
  | call (t : Tid) (k : Entry)
  /-- a signal handler is called -/
  | interrupt (t : Tid)
  /-- `n` frames are left by longjmp or the end of the thread -/
  | unwind (t : Tid) (n : Nat)
  /-- fork; the child is followed, in which only this thread is left; it begins its process with the value
  of monitor_pre_fork (fork.c:306-333) -/
  | fork (t : Tid) (d : Data)
  deriving DecidableEq, Repr

def next (s : S) (l : Lbl) : Option S :=
  match l with
  | .go t v =>
    match s.th t with
    | some c :: rest =>
      match s.pc c with
      | some (p, k) => some (cstep s t c rest v k p)
      | none => none
    | none :: f :: rest => some (s.setTh t (f :: rest))
    | _ => none
  | .call t k =>
    match s.th t with
    | none :: _ => some (s.enter t k.start false 0)
    | _ => none
  | .interrupt t =>
    match s.th t with
    | [] => none
    | l => some (s.setTh t (none :: l))
  | .unwind t n =>
    match s.th t with
    | none :: rest =>
      some { s.setTh t ((none :: rest).drop n) with
        pc := fun c => if some c ∈ (none :: rest).take n then none else s.pc c }
    | _ => none
  | .fork t d =>
    match s.th t with
    | none :: rest =>
      some (S.enter { s.log .fork with
          th := fun u => if u = t then none :: rest else []
          pc := fun c => if some c ∈ rest then s.pc c else none } t (.test .normal, [.p1]) true d)
    | _ => none

/-- Executions whose labels satisfy `A`. -/
inductive ReachA (A : S → Lbl → Prop) : S → Prop where
  | init : ReachA A {}
  | next {s s' : S} {l : Lbl} : ReachA A s → A s l → next s l = some s' → ReachA A s'

abbrev Reach := ReachA fun _ _ => True

end Libmonitor.Once
