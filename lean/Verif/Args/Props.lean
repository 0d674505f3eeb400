import Verif.Args.Lemmas

/-! # C60: program arguments and exit status -/

namespace Libmonitor.Args

/-- In all executions: main once, with the arguments the process was started with, and the real
exit function gets the status that its thread asked for. -/
theorem C60_sound {A : S → Lbl → Prop} {static : Bool} {a : Arg} {s : S}
    (h : ReachA A static a s) : Always (Sound a) s.g.tr := (sound_inv h).hist

/-- Partial: if nothing enters the library before monitor_main has begun the process, callbacks
are given the arguments of main, with the count as the client left it (the Fortran mpi_init:
unless the client changes it). -/
theorem C60_exact_partial {static : Bool} {a : Arg} {s : S}
    (h : ReachA FromMain static a s) : Always (Exact a) s.g.tr := (exact_inv h).hist

/-! ## Executions that meet the hypotheses -/

private def go (t : Tid) : Lbl := ⟨t, .go 0⟩
private def args : Arg := ⟨3, 70, 80⟩

/-- A program, statically linked: the client sets the count to 2 in init-process; after main has
started, another thread calls the Fortran mpi_init while the client sets it to 9; main returns
4; a handler in the main thread calls `_exit(5)`. -/
private def whole : List Lbl :=
  [go 0, go 0, go 0, go 0, go 0, -- stores, begin
   go 0, go 0, go 0, ⟨0, .call (.setArgc 2)⟩, go 0, -- init-process
   go 0, go 0, go 0, go 0, go 0, -- wrap-main, main
   ⟨1, .call .fortranInit⟩, go 1, ⟨0, .call (.setArgc 9)⟩, go 1, go 1,
   ⟨0, .go 4⟩, ⟨0, .interrupt⟩, ⟨0, .call (.exit 5)⟩, go 0]

example : ∃ s, ReachA FromMain true args s ∧
    decide (s.g.tr = [(0, .quit 5), (0, .exitCall 5), (0, .exitCall 4), (1, .initMpi 2 70),
      (0, .clientSet 9), (0, .main args), (0, .wrapMain ⟨2, 70, 80⟩), (0, .clientSet 2),
      (0, .initProcess 3 70)]) = true := exists_of_run (ls := whole) (by decide)

/-- A program that forks; the child's init-process gets the arguments, too. -/
example : ∃ s, ReachA FromMain false args s ∧
    decide (s.g.tr = [(0, .quit 7), (0, .exitCall 7), (0, .initProcess 3 70), (0, .forked),
      (0, .main args), (0, .initProcess 3 70)]) = true :=
  exists_of_run (ls := [go 0, go 0, go 0, go 0, go 0, go 0, go 0, go 0, go 0, go 0, go 0, go 0,
    ⟨0, .fork⟩, go 0, go 0, go 0, go 0, ⟨0, .go 7⟩, go 0]) (by decide)

/-! ## What does not hold -/

/-- A library constructor starts a thread (or monitor is initialized early): init-process is
given no arguments, and is not called again when they are known. -/
theorem C60_early : ∃ s, Reach false args s ∧
    decide (s.g.tr = [(0, .main args), (0, .initProcess 0 0)]) = true :=
  exists_of_run (ls := [⟨0, .call .begin⟩, go 0, go 0, go 0, go 0,
    go 0, go 0, go 0, go 0, go 0, go 0, go 0, go 0, go 0]) (by decide)

/-- ... or, if another thread begins the process while monitor_main stores: a count without the
arguments, -/
theorem C60_torn : ∃ s, Reach false args s ∧
    decide (s.g.tr = [(1, .initProcess 3 0)]) = true :=
  exists_of_run (ls := [⟨1, .call .begin⟩, go 1, go 1, go 0, go 0, go 1]) (by decide)

/-- ... the arguments without a count, in the Fortran mpi_init. -/
theorem C60_torn_mpi : ∃ s, Reach false args s ∧
    decide (s.g.tr = [(1, .initMpi 0 70)]) = true :=
  exists_of_run (ls := [⟨1, .call .fortranInit⟩, go 1, go 0, go 0, go 0, go 1, go 1]) (by decide)

/-- What the client stores before main is lost. -/
theorem C60_lost_count : ∃ s, Reach true args s ∧
    decide (s.g.tr = [(0, .wrapMain args), (0, .clientSet 2), (0, .initProcess 0 0)]) = true :=
  exists_of_run (ls := [⟨0, .call .begin⟩, go 0, go 0, go 0, ⟨0, .call (.setArgc 2)⟩, go 0,
    go 0, go 0, go 0, go 0, go 0, go 0, go 0, go 0, go 0]) (by decide)

/-- The count that the client stores reaches monitor_wrap_main, and init-process of a child,
but never the application's main. -/
theorem C60_main_ignores : ∃ s, ReachA FromMain true args s ∧
    decide (s.g.tr = [(0, .initProcess 2 70), (0, .forked), (0, .main args),
      (0, .wrapMain ⟨2, 70, 80⟩), (0, .clientSet 2), (0, .initProcess 3 70)]) = true :=
  exists_of_run (ls := [go 0, go 0, go 0, go 0, go 0, go 0, go 0, go 0, ⟨0, .call (.setArgc 2)⟩,
    go 0, go 0, go 0, go 0, go 0, go 0, ⟨0, .fork⟩, go 0, go 0, go 0]) (by decide)

end Libmonitor.Args
