import Verif.Start.Lemmas

/-! # C73: program start -/

namespace Libmonitor.Start

/-- In all executions in which `stinfo` points at four words: libc's start function gets the parameters of the call,
main is one that was given and gets the arguments that libc passed, all once for each call and after
monitor_start_main_init; monitor_get_addr_main gives NULL or a main that was given, a main after
monitor_start_main_init; nothing is read behind the four words. -/
theorem C73_sound {A : S → Lbl → Prop} (hA : ∀ s l, A s l → Whole s l) {b : Build} {s : S}
    (h : ReachA A b s) : Always (Sound b) s.g.tr ∧ s.g.ub = false :=
  ⟨(sound_inv hA h).hist, (sound_inv hA h).glob.ub⟩

/-- Partial: if one program is started in a process, libc's start function also gets all four words with
monitor_main for main, monitor_main is not bypassed, main runs once; main and the answers of monitor_get_addr_main are
the main that was given. -/
theorem C73_exact_partial {b : Build} {s : S} (h : ReachA Once b s) : Always (Exact b) s.g.tr :=
  (exact_inv h).hist

/-! ## Executions that meet the hypotheses -/

private def go (t : Tid) : Lbl := ⟨t, .go []⟩
private def goA (t : Tid) (a : List Nat) : Lbl := ⟨t, .go a⟩
private def prog (m : Addr) : Par := .x86 m 3 70 11 12 13 99
private def progP (m : Addr) : Par := .ppc 3 70 80 90 13 60 99 [41, m, 43, 44]

/-- x86: a constructor makes the library initialise; the program is started; a thread asks for the address of main in
between; main runs and a handler asks, also in a child. -/
example : ∃ s, ReachA Once .x86 s ∧
    decide (s.g.tr = [(0, .query 7), (0, .forked), (0, .query 7), (0, .main 7 [3, 70, 80]), (0, .libcMain [3, 70, 80]),
      (0, .realStart (.x86 MONITOR_MAIN 3 70 11 12 13 99)), (1, .query 7), (0, .startInit), (0, .start (prog 7))]) = true :=
  exists_of_run (ls := [⟨0, .enter⟩, go 0, go 0, ⟨0, .start (prog 7)⟩, go 0, go 0, ⟨1, .query⟩, go 1, go 0, go 0,
    goA 0 [3, 70, 80], go 0, go 0, go 0, ⟨0, .interrupt⟩, ⟨0, .query⟩, go 0, ⟨0, .fork⟩, ⟨0, .query⟩, go 0]) (by decide)

/-- PowerPC; main has a fourth argument. -/
example : ∃ s, ReachA Once .ppc s ∧
    decide (s.g.tr = [(0, .main 7 [3, 70, 80, 90]), (0, .libcMain [3, 70, 80, 90]),
      (0, .realStart (.ppc 3 70 80 90 13 NEW_STINFO 99 [41, MONITOR_MAIN, 43, 44])), (0, .startInit),
      (0, .start (progP 7))]) = true :=
  exists_of_run (ls := [⟨0, .start (progP 7)⟩, go 0, go 0, go 0, go 0, go 0, go 0,
    goA 0 [3, 70, 80, 90], go 0, go 0, go 0, go 0]) (by decide)

/-- Statically linked; the callback asks for main. -/
example : ∃ s, ReachA Once .static s ∧
    decide (s.g.tr = [(0, .main REAL_MAIN [3, 70, 80]), (0, .query REAL_MAIN), (0, .startInit),
      (0, .libcMain [3, 70, 80])]) = true :=
  exists_of_run (ls := [goA 0 [3, 70, 80], go 0, go 0, go 0, go 0, go 0, ⟨0, .query⟩, go 0, go 0, go 0, go 0, go 0])
    (by decide)

/-! ## What does not hold -/

/-- In a library constructor the address of main is not known yet (x86, PowerPC), -/
theorem C73_early : ∃ s, ReachA Once .x86 s ∧
    decide (s.g.tr = [(0, .start (prog 7)), (0, .query 0)]) = true :=
  exists_of_run (ls := [⟨0, .enter⟩, go 0, go 0, ⟨0, .query⟩, go 0, ⟨0, .start (prog 7)⟩]) (by decide)

/-- ... in the static case if the library was not entered before. -/
theorem C73_early_static : ∃ s, ReachA Once .static s ∧
    decide (s.g.tr = [(0, .query REAL_MAIN), (0, .query 0)]) = true :=
  exists_of_run (ls := [⟨0, .query⟩, go 0, ⟨0, .enter⟩, go 0, go 0, ⟨0, .query⟩, go 0]) (by decide)

/-- A program that calls __libc_start_main a second time, from a constructor: main of the second runs twice, the
first never. -/
theorem C73_second : ∃ s, ReachA Whole .x86 s ∧
    decide (s.g.tr = [(0, .main 8 [1]), (0, .libcMain [1]), (0, .main 8 [2]), (0, .libcMain [2]),
      (0, .realStart (.x86 MONITOR_MAIN 3 70 11 12 13 99)), (0, .startInit), (0, .start (prog 8)),
      (0, .realStart (.x86 MONITOR_MAIN 3 70 11 12 13 99)), (0, .startInit), (0, .start (prog 7))]) = true :=
  exists_of_run (ls := [⟨0, .start (prog 7)⟩, go 0, go 0, go 0, go 0,
    ⟨0, .start (prog 8)⟩, go 0, go 0, go 0, go 0, goA 0 [2], go 0, go 0, go 0, go 0, go 0,
    goA 0 [1], go 0, go 0, go 0]) (by decide)

/-- PowerPC, where the changed words are kept in a static variable: if a second thread does so, libc may call main
directly, and the wrong one. -/
theorem C73_bypass : ∃ s, ReachA Whole .ppc s ∧
    decide (s.g.tr = [(0, .bypass 8 [1]), (1, .start (progP 8)),
      (0, .realStart (.ppc 3 70 80 90 13 NEW_STINFO 99 [41, MONITOR_MAIN, 43, 44])), (0, .startInit),
      (0, .start (progP 7))]) = true :=
  exists_of_run (ls := [⟨0, .start (progP 7)⟩, go 0, go 0, go 0, go 0, go 0, go 0,
    ⟨1, .start (progP 8)⟩, go 1, go 1, goA 0 [1]]) (by decide)

/-- The four words are copied without asking. -/
theorem C73_short : ∃ s, Reach .ppc s ∧ s.g.ub = true :=
  exists_of_run (A := fun _ _ => True) (ls := [⟨0, .start (.ppc 3 70 80 90 13 60 99 [41, 7])⟩, go 0, go 0]) (by decide)

end Libmonitor.Start
