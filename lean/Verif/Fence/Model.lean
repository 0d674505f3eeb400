/-!
# Start-function fences: main.c and pthread.c

Addresses are natural numbers.
-/

namespace Libmonitor.Fence

/-- Addresses of the four labels of a start function (main.c:508, 520, 531, 535;
pthread.c:947, 990, 992, 996). -/
structure Fences where
  f1 : Nat
  f2 : Nat
  f3 : Nat
  f4 : Nat

/-- monitor_in_main_start_func_wide, main.c:385-390, and the same test for the thread's fences,
pthread.c:728-729. -/
def wide (f : Fences) (addr : Nat) : Bool := decide (f.f1 ≤ addr) && decide (addr ≤ f.f4)

/-- monitor_in_main_start_func_narrow, main.c:396-401, and pthread.c:741-742. -/
def narrow (f : Fences) (addr : Nat) : Bool := decide (f.f2 ≤ addr) && decide (addr ≤ f.f3)

/-- The library, with or without thread support: without it the weak versions of main.c:705-715 are
used, which look at monitor_main only. -/
structure Lib where
  main : Fences
  thread : Option Fences

/-- monitor_in_start_func_wide, pthread.c:724-730, main.c:705-709. -/
def startWide (l : Lib) (addr : Nat) : Bool :=
  wide l.main addr || (match l.thread with | some t => wide t addr | none => false)

/-- monitor_in_start_func_narrow, pthread.c:737-743, main.c:711-715. -/
def startNarrow (l : Lib) (addr : Nat) : Bool :=
  narrow l.main addr || (match l.thread with | some t => narrow t addr | none => false)

/-- monitor_unwind_process_bottom_frame, main.c:374-379. -/
def processBottom (l : Lib) (addr : Nat) : Bool :=
  decide (l.main.f1 ≤ addr) && decide (addr ≤ l.main.f4)

/-- monitor_unwind_thread_bottom_frame, pthread.c:696-701; main.c:688-692 (weak: 0). -/
def threadBottom (l : Lib) (addr : Nat) : Bool :=
  match l.thread with
  | some t => decide (t.f1 ≤ addr) && decide (addr ≤ t.f4)
  | none => false

/-- One instruction of a start function; `call` marks calls. -/
structure Instr where
  len : Nat
  call : Bool := false

/-- Size of a piece of code. -/
def size (c : List Instr) : Nat := (c.map Instr.len).sum

/-- A compiled start function: prologue up to fence 1, initialisation up to fence 2, call of the
application up to fence 3, exit processing up to fence 4, epilogue.  The compiler
keeps the order of the `asm volatile` labels (common.h:157-159) and the code between them, but
not which instructions end up where.  Simplification: one contiguous body, no part
moved to another section. -/
structure Body where
  lo : Nat
  c0 : List Instr
  c1 : List Instr
  c2 : List Instr
  c3 : List Instr
  c4 : List Instr

def Body.fences (b : Body) : Fences where
  f1 := b.lo + size b.c0
  f2 := b.lo + size b.c0 + size b.c1
  f3 := b.lo + size b.c0 + size b.c1 + size b.c2
  f4 := b.lo + size b.c0 + size b.c1 + size b.c2 + size b.c3

/-- First address behind the function. -/
def Body.hi (b : Body) : Nat := b.fences.f4 + size b.c4

end Libmonitor.Fence
