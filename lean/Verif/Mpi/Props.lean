import Verif.Mpi.Lemmas

/-!
# C37, C38: MPI callbacks and size/rank
-/

namespace Libmonitor.Mpi

/-- **C37.**  For every call tree: the events the client and the application see are those of
the counter-free specification (callbacks once per outermost call, around the real call)
and the counters are back at zero. -/
theorem C37_mpi_callbacks_outermost (cs : List Call) :
    (runList {} cs).2 = Spec.eventsList false false cs ∧
    (runList {} cs).1.initCount = 0 ∧ (runList {} cs).1.finiCount = 0 := by
  simpa using runList_events {} cs (by decide) (by decide)

/-- The same from inside other wrappers: a nested call delivers no callback. -/
theorem C37_mpi_nested (s : St) (c : Call) (hi : 0 ≤ s.initCount) (hf : 0 ≤ s.finiCount) :
    (run s c).2 = Spec.events (decide (0 < s.initCount)) (decide (0 < s.finiCount)) c :=
  (run_events s c hi hf).1

/-- Number of initialisation calls that are not nested in another one. -/
def outerInits : List Call → Nat
  | [] => 0
  | .init _ _ _ _ :: cs => 1 + outerInits cs
  | _ :: cs => outerInits cs

/-- **C37.**  Counting form, for programs whose outermost calls are initialisations: as many
pre-init callbacks as outermost initialisation calls, whatever happens inside. -/
theorem C37_mpi_pre_init_count (cs : List Call)
    (h : ∀ c ∈ cs, ∃ w pre body post, c = Call.init w pre body post) :
    ((runList {} cs).2.countP fun e => decide (e = Ev.preInit)) = outerInits cs := by
  rw [(C37_mpi_callbacks_outermost cs).1]
  induction cs with
  | nil => rfl
  | cons c cs ih =>
    obtain ⟨w, pre, body, post, rfl⟩ := h c (by simp)
    have ih := ih (fun c hc => h c (List.mem_cons_of_mem _ hc))
    have z : ∀ l : List Call, (Spec.eventsList true false l).countP
        (fun e => decide (e = Ev.preInit)) = 0 := by
      intro l
      rw [List.countP_eq_zero]
      intro e he
      simp only [decide_eq_true_eq]
      rintro rfl
      exact noPreInitList false l he
    simp only [Spec.eventsList, Spec.events, List.countP_append, Bool.false_eq_true, if_false,
      List.countP_cons, List.countP_nil, z, outerInits, ih]
    simp

/-- A Fortran init wrapper whose real function calls the C and PMPI wrappers; a client that
asks for the rank inside its callback. -/
example : (runList {} [.init 1 [] [.init 0 [] [.init 4 [] [] []] []] [.commRank 0 [] 4 2],
      .commRank 0 [] 8 3, .fini 0 [] [.fini 4 [] [] []] []]).2 =
    [.initEnter 1, .preInit, .realInit 1, .initEnter 0, .realInit 0, .initEnter 4, .realInit 4,
     .realInitRet 4, .initLeave 4, .realInitRet 0, .initLeave 0, .realInitRet 1, .initMpi,
     .rankKnown 4 2, .initLeave 1, .rankKnown 8 3, .finiEnter 0, .finiMpi, .realFini 0,
     .finiEnter 4, .realFini 4, .realFiniRet 4, .finiLeave 4, .realFiniRet 0, .postFini,
     .finiLeave 0] := by decide +kernel

/-! ## C38 -/

/-- **C38.**  After every history the reported size and rank are those of the first usable
value: an explicit client setting or a rank query answered outside of any initialisation
call after one has happened; -1 if there was none. -/
theorem C38_size_rank_first_usable (cs : List Call) :
    report (runList {} cs).1 =
      (Spec.firstUsable [] (runList {} cs).2).getD (-1, -1) := by
  have ok := runList_ok {} cs [] ok_initial (by decide)
  rw [List.nil_append] at ok
  by_cases h : (runList {} cs).1.firstSet = true
  · obtain ⟨h1, h2, _⟩ := ok.unset h; rw [h1, h2]; rfl
  · rw [ok.set (by simpa using h)]; rfl

/-- **C38.**  Once a usable value was seen the answer never changes again. -/
theorem C38_size_rank_stable (a b : List Call) (v : Int × Int)
    (h : Spec.firstUsable [] (runList {} a).2 = some v) :
    report (runList {} a).1 = v ∧ report (runList {} (a ++ b)).1 = v := by
  refine ⟨by rw [C38_size_rank_first_usable, h]; rfl, ?_⟩
  rw [C38_size_rank_first_usable, runList_append, firstUsable_append, h]; rfl

/-- A rank of another communicator seen inside MPI_Init is not used; the first one after is,
and stays, even if the client sets another one later. -/
example : report (runList {} [.commRank 0 [] 7 7, .init 0 [] [.commRank 0 [] 2 1] [.commRank 0 [] 4 2],
      .commRank 0 [.commRank 4 [] 8 3] 8 3, .setSizeRank 1 0]).1 = (8, 3) := by decide +kernel

end Libmonitor.Mpi
