import Verif.Wrap.Lemmas

/-! # C61: calls of MPI functions are passed through -/

namespace Libmonitor.Wrap

/-- All executions. -/
theorem C61_passed_through {static : Bool} {s : S} (h : Reach static s) :
    Always Through s.g.tr := (inv h).hist

/-- In particular: a wrapper that returns has called the real function of its own name, with its
own arguments, and returns the result. -/
theorem C61_returned {static : Bool} {s : S} (h : Reach static s) {t : Tid} {id v : Nat}
    (hr : (t, Ev.ret id v) ∈ s.g.tr) :
    ∃ w args addr, (t, Ev.enter id w args) ∈ s.g.tr ∧ (t, Ev.real id addr args) ∈ s.g.tr ∧
      Found w.own addr s.g.tr ∧ (t, Ev.realRet id v) ∈ s.g.tr := by
  have hal := (inv h).hist
  obtain ⟨o1, h1, s1⟩ := always_mem hal hr
  have hret := s1 _ h1.1
  obtain ⟨o2, h2, s2⟩ := always_mem hal hret
  obtain ⟨p, args, h2⟩ := h2.1
  have hreal := s2 _ h2
  obtain ⟨o3, h3, s3⟩ := always_mem hal hreal
  obtain ⟨w, hw, ⟨h0, u, hf⟩, _⟩ := h3.1
  exact ⟨w, args, p, s3 _ hw, hreal, ⟨h0, u, s3 _ hf⟩, hret⟩

/-! ## Executions -/

private def go (t : Tid) (v : Nat := 0) : Lbl := ⟨t, .go v⟩
private def mpiInit : W := ⟨false, .init, .c⟩
private def pmpiInit : W := ⟨true, .init, .c⟩
private def fRank : W := ⟨false, .commRank, .f1⟩

/-- MPI_Init, whose real function calls PMPI_Init; meanwhile another thread calls the same
wrapper of PMPI_Init and finds the address, too. -/
example : ∃ s, Reach false s ∧ decide (s.g.tr =
    [(0, .ret 0 5), (0, .initMpi 0 11 12), (0, .realRet 0 5), (0, .ret 1 6), (0, .realRet 1 6),
     (0, .real 1 200 [21, 22]), (1, .real 2 200 [31, 32]), (1, .lookup (.C true .init) 200),
     (0, .lookup (.C true .init) 200), (1, .enter 2 pmpiInit [31, 32]),
     (0, .enter 1 pmpiInit [21, 22]), (0, .real 0 100 [11, 12]), (0, .lookup (.C false .init) 100),
     (0, .enter 0 mpiInit [11, 12])]) = true :=
  exists_of_run (ls := [⟨0, .call mpiInit [11, 12]⟩, go 0, go 0 100, go 0 1, go 0, go 0,
    ⟨0, .call pmpiInit [21, 22]⟩, ⟨1, .call pmpiInit [31, 32]⟩, go 0, go 1, go 0 200, go 1 200,
    go 1, go 1, go 0, go 0, go 0 6, go 0, go 0, go 0 5, go 0 1, go 0, go 0]) (by decide)

/-- mpi_comm_rank_ twice; the second call is left by a long jump out of a handler. -/
example : ∃ s, Reach false s ∧ decide (s.g.tr =
    [(3, .size 1 300 9), (3, .enter 1 fRank [9, 8, 7]), (3, .ret 0 0), (3, .realRet 0 0),
     (3, .real 0 400 [1, 2, 3]), (3, .size 0 300 1), (3, .lookup (.F false .commRank 1) 400),
     (3, .lookup (.FSize false 1) 300), (3, .enter 0 fRank [1, 2, 3])]) = true ∧
    s.th 3 = [.app] := by
  have : ∃ s, Reach false s ∧ decide (s.g.tr =
      [(3, .size 1 300 9), (3, .enter 1 fRank [9, 8, 7]), (3, .ret 0 0), (3, .realRet 0 0),
       (3, .real 0 400 [1, 2, 3]), (3, .size 0 300 1), (3, .lookup (.F false .commRank 1) 400),
       (3, .lookup (.FSize false 1) 300), (3, .enter 0 fRank [1, 2, 3])] ∧
      s.th 3 = [.app]) = true :=
    exists_of_run (ls := [⟨3, .call fRank [1, 2, 3]⟩, go 3, go 3 300, go 3, go 3 400, go 3, go 3,
      go 3, go 3, go 3, go 3, go 3, ⟨3, .call fRank [9, 8, 7]⟩, go 3, go 3, go 3, go 3,
      ⟨3, .interrupt⟩, ⟨3, .unwind 2⟩]) (by decide)
  obtain ⟨s, h, hd⟩ := this
  simp only [decide_eq_true_eq] at hd
  exact ⟨s, h, decide_eq_true hd.1, hd.2⟩

/-- The statically linked Fortran mpi_finalize. -/
example : ∃ s, Reach true s ∧ decide (s.g.tr =
    [(0, .ret 0 0), (0, .realRet 0 0), (0, .real 0 70 [1]),
     (0, .lookup (.F false .finalize 0) 70), (0, .enter 0 ⟨false, .finalize, .f0⟩ [1])]) = true :=
  exists_of_run (ls := [⟨0, .call ⟨false, .finalize, .f0⟩ [1]⟩, go 0, go 0 70, go 0, go 0, go 0,
    go 0, go 0]) (by decide)

end Libmonitor.Wrap
