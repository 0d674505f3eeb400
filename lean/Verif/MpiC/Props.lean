import Verif.MpiC.Store
import Verif.MpiC.Source
/-!
# C56, C57: MPI callbacks, size and rank in programs with several threads
-/

namespace Libmonitor.MpiC

/-! ## Schedules -/

def go (t : Tid) (n : Nat) : List Lbl := List.replicate n ⟨t, .go none 0⟩
def val (t : Tid) (v : Int) : List Lbl := [⟨t, .go (some v) 0⟩]
def call (t : Tid) (a : Api) : List Lbl := [⟨t, .call a⟩]
def back (t : Tid) : List Lbl := [⟨t, .back⟩]

/-- A whole initialisation that calls nothing else. -/
def initAll (t : Tid) (w : Nat) : List Lbl :=
  call t (.init w) ++ go t 6 ++ back t ++ go t 1 ++ back t ++ go t 2 ++ back t ++ go t 4

/-- A rank query up to the tests. -/
def query (t : Tid) (size rank : Int) : List Lbl :=
  call t (.commRank 0 false) ++ val t size ++ back t ++ val t rank ++ back t ++ go t 1

/-! ## C56 -/

/-- C56: in every thread the callbacks around initialisation and finalisation belong to the
outermost calls, one before the real function and one after, and to no others.

Missing: executions in which two threads are inside such calls at a time, a handler that
interrupts the update of a counter calls a wrapper again, or a call is left by cancellation or
longjmp.  The claim fails there: `C56_two_threads`, `C56_in_handler`, `C56_cancelled`. -/
theorem C56_callbacks_partial {s : S} (h : ReachA Serial s) (k : Kind) (t : Tid) :
    phases k t s.g.tr ≠ none := by
  rw [(inv_all h k).phase t]; exact Option.some_ne_none _

/-- C56: and the counters say how many calls are open: when no thread is inside a call they are
zero. -/
theorem C56_counters_partial {s : S} (h : ReachA Serial s) (k : Kind)
    (hno : ∀ t, opened k t s.g.tr = 0) : s.g.count k = 0 := by
  have hI := inv_all h k
  obtain ⟨o, _, h2⟩ := hI.own
  rw [h2]
  refine wts_zero ?_
  simpa [opened, hI.phase, phs_len] using hno o

/-- A nested initialisation in thread 1 while thread 2 asks for the rank. -/
example : ∃ s, ReachA Serial s ∧
    s.g.tr = [(1, .leave .init 5), (1, .second .init), (2, .known true 4 3), (1, .realRet .init 5),
      (1, .leave .init 6), (1, .realRet .init 6), (1, .real .init 6), (1, .enter .init 6),
      (1, .real .init 5), (1, .first .init), (1, .enter .init 5)] ∧ s.th 1 = [.app] := by
  obtain ⟨s, hr, hp⟩ := exists_of_run (A := Serial)
    (ls := call 1 (.init 5) ++ go 1 6 ++ back 1 ++ go 1 1 ++
      (call 1 (.init 6) ++ go 1 7 ++ back 1 ++ go 1 6) ++ back 1 ++ go 1 1 ++ query 2 4 3 ++ go 1 1 ++ back 1 ++ go 1 4)
    (p := fun s => decide (s.g.tr = [(1, .leave .init 5), (1, .second .init), (2, .known true 4 3), (1, .realRet .init 5),
      (1, .leave .init 6), (1, .realRet .init 6), (1, .real .init 6), (1, .enter .init 6),
      (1, .real .init 5), (1, .first .init), (1, .enter .init 5)] ∧ s.th 1 = [.app])) (by decide +kernel)
  exact ⟨s, hr, of_decide_eq_true hp⟩

/-- C56 fails when two threads initialise at the same time: the second one, whose call is outermost in
its thread, calls the real function without a callback. -/
theorem C56_two_threads : ∃ s, ReachA (fun _ _ => True) s ∧ phases .init 2 s.g.tr = none := by
  obtain ⟨s, hr, hp⟩ := exists_of_run (A := fun _ _ => True)
    (ls := call 1 (.init 5) ++ go 1 6 ++ call 2 (.init 5) ++ go 2 7)
    (p := fun s => decide (phases .init 2 s.g.tr = none)) (by decide +kernel)
  exact ⟨s, hr, of_decide_eq_true hp⟩

/-- C56 fails when two threads initialise at the same time: both have loaded the counter before
either has stored it, so it is incremented once and later decremented twice: it is -1 when both have
returned. -/
theorem C56_lost_update : ∃ s, ReachA (fun _ _ => True) s ∧ opened .init 1 s.g.tr = 0 ∧
    opened .init 2 s.g.tr = 0 ∧ s.th 1 = [.app] ∧ s.th 2 = [.app] ∧ s.g.initCount = -1 := by
  obtain ⟨s, hr, hp⟩ := exists_of_run (A := fun _ _ => True)
    (ls := call 1 (.init 5) ++ call 2 (.init 5) ++ go 1 1 ++ go 2 1 ++ go 1 5 ++ back 1 ++ go 1 1 ++
      back 1 ++ go 1 2 ++ back 1 ++ go 2 4 ++ back 2 ++ go 2 1 ++ back 2 ++ go 2 2 ++ back 2 ++
      go 1 4 ++ go 2 4)
    (p := fun s => decide (opened .init 1 s.g.tr = 0 ∧ opened .init 2 s.g.tr = 0 ∧ s.th 1 = [.app] ∧
      s.th 2 = [.app] ∧ s.g.initCount = -1)) (by decide +kernel)
  exact ⟨s, hr, of_decide_eq_true hp⟩

/-- C56 fails when a handler interrupts the update of the counter and initialises: the counter does not
count the interrupted call yet, so the handler's call gets callbacks although it is nested. -/
theorem C56_in_handler : ∃ s, ReachA (fun _ l => l.i ≠ .unwind ∧ l.t = 1) s ∧
    phases .init 1 s.g.tr = none := by
  obtain ⟨s, hr, hp⟩ := exists_of_run (A := fun _ l => l.i ≠ .unwind ∧ l.t = 1)
    (ls := call 1 (.init 5) ++ go 1 1 ++ [⟨1, .interrupt⟩] ++ call 1 (.init 5) ++ go 1 6)
    (p := fun s => decide (phases .init 1 s.g.tr = none)) (by decide +kernel)
  exact ⟨s, hr, of_decide_eq_true hp⟩

/-- C56 fails after a call was left by cancellation or longjmp (one thread, no handler): the counter
stays at one, and the next initialisation gets no callbacks. -/
theorem C56_cancelled : ∃ s, ReachA (fun _ l => l.t = 1 ∧ l.i ≠ .interrupt) s ∧
    s.g.tr.take 2 = [(1, .real .init 5), (1, .enter .init 5)] ∧ s.th 1 = [.app, .rret .init 5 2, .app] := by
  obtain ⟨s, hr, hp⟩ := exists_of_run (A := fun _ l => l.t = 1 ∧ l.i ≠ .interrupt)
    (ls := call 1 (.init 5) ++ go 1 6 ++ back 1 ++ go 1 1 ++ [⟨1, .unwind⟩] ++ call 1 (.init 5) ++ go 1 7)
    (p := fun s => decide (s.g.tr.take 2 = [(1, .real .init 5), (1, .enter .init 5)] ∧
      s.th 1 = [.app, .rret .init 5 2, .app])) (by decide +kernel)
  exact ⟨s, hr, of_decide_eq_true hp⟩

/-! ## C57 -/

/-- C57, every execution: a published size and rank was given by the client, or it is the result of a
query that the same thread made, after some initialisation had begun. -/
theorem C57_source {s : S} (h : Reach s) {t : Tid} {size rank : Int}
    (hp : (t, .publish size rank) ∈ s.g.tr) : Source s.g.tr t size rank :=
  (src_inv h).1.1 t size rank hp

/-- C57: at most one pair is ever published, and when no thread is about to store one the reported
pair is the published one, or -1, -1.

Missing: executions in which two calls of monitor_set_size_rank overlap, or one is cut short.  The
claim fails there: `C57_torn`, `C57_changed`, `C57_cut_short`. -/
theorem C57_first_partial {s : S} (h : ReachA OneSet s) :
    (published s.g.tr).length ≤ 1 ∧
    ((∀ t, ∀ f ∈ s.th t, f.storing = false) → s.report = (published s.g.tr).headD (-1, -1)) := by
  have hI := inv2_all h
  constructor
  · by_cases hp : ∃ t, ∃ f ∈ s.th t, f.pending = true
    · obtain ⟨t, f, hf, hp⟩ := hp
      have := hI.ok t f hf
      cases f <;> simp only [Frame.pending, Bool.false_eq_true] at hp
      · rw [this.2.1]; simp
      · rw [this.2.1]; simp
      · rw [this.2]; simp
    · have := hI.idle fun t f hf => by
        cases e : f.pending
        · rfl
        · exact absurd ⟨t, f, hf, e⟩ hp
      split at this
      · rw [this.1]; simp
      · rw [this]; simp
  · intro hno
    have := hI.idle fun t f hf => by
      cases e : f.pending
      · rfl
      · have h2 := hno t f hf; rw [pending_storing e] at h2; cases h2
    split at this
    · rw [this.1]; simp [S.report, this.2]
    · rw [this]; rfl

/-- C57: once a pair is published and stored, the reports never change.

Missing: as for `C57_first_partial`. -/
theorem C57_stable_partial {s s' : S} (h : ReachA OneSet s) (hl : Later OneSet s s')
    (hno : ∀ t, ∀ f ∈ s.th t, f.storing = false) {v : Int × Int} (hp : v ∈ published s.g.tr) :
    s'.report = v := by
  have hfs : s.g.firstSet = false ∧ s.report = v := by
    have hI := inv2_all h
    have := hI.idle fun t f hf => by
      cases e : f.pending
      · rfl
      · have h2 := hno t f hf; rw [pending_storing e] at h2; cases h2
    cases hf : s.g.firstSet <;> simp only [hf, if_true, Bool.false_eq_true, if_false] at this
    · rw [this, List.mem_singleton] at hp; exact ⟨rfl, hp.symm⟩
    · rw [this.1] at hp; cases hp
  have key : s'.g.firstSet = false ∧ s'.report = v := by
    induction hl with
    | refl => exact hfs
    | @step s1 s2 l hl hA hn ih =>
      have hI := inv2_all (later_reach h hl)
      obtain ⟨h1, h2⟩ := ih
      have hidle : ∀ t, ∀ f ∈ s1.th t, f.pending = false := fun t f hf => by
        have := hI.ok t f hf
        cases f <;> first | rfl | (have h3 := this.1; rw [h1] at h3; cases h3)
      obtain ⟨t, i⟩ := l
      cases i with
      | go a b =>
        simp only [next] at hn
        cases hst : s1.th t with
        | nil => simp [hst] at hn
        | cons f rest =>
          simp only [hst, Option.map_eq_some_iff] at hn
          obtain ⟨⟨g, fs⟩, hf, rfl⟩ := hn
          have hnp := hidle t f (by rw [hst]; exact List.mem_cons_self)
          show g.firstSet = false ∧ (g.size, g.rank) = v
          cases f with
          | app => simp [fstep] at hf
          | ss1 | ss2 | ss3 => cases hnp
          | store k w up v =>
            simp only [fstep, Option.some.injEq, Prod.mk.injEq] at hf
            rw [← hf.1]; cases k <;> exact ⟨h1, h2⟩
          | _ =>
            simp only [fstep] at hf
            (repeat' split at hf) <;> simp only [Option.some.injEq, Prod.mk.injEq] at hf <;>
              (rw [← hf.1]; exact ⟨h1, h2⟩)
      | call a =>
        simp only [next] at hn
        cases hst : s1.th t with
        | nil => simp [hst] at hn
        | cons f rest =>
          rw [hst] at hn
          cases f <;> simp only [Option.some.injEq, reduceCtorEq] at hn
          subst hn
          cases a <;> exact ⟨h1, h2⟩
      | back =>
        simp only [next] at hn
        cases hst : s1.th t with
        | nil => simp [hst] at hn
        | cons f rest =>
          rw [hst] at hn
          cases f <;> try cases hn
          cases rest with
          | nil => simp at hn
          | cons f rest => simp only [Option.some.injEq] at hn; subst hn; exact ⟨h1, h2⟩
      | interrupt => simp only [next, Option.some.injEq] at hn; subst hn; exact ⟨h1, h2⟩
      | unwind => simp only [next, Option.some.injEq] at hn; subst hn; exact ⟨h1, h2⟩
  exact key.2

/-- Two threads ask for the rank in different communicators, one after the other; the first one is
reported. -/
example : ∃ s, ReachA OneSet s ∧ published s.g.tr = [(4, 3)] ∧ s.report = (4, 3) ∧
    (2, .known true 2 1) ∈ s.g.tr ∧ s.th 1 = [.app] ∧ s.th 2 = [.app] := by
  obtain ⟨s, hr, hp⟩ := exists_of_run (A := OneSet)
    (ls := initAll 1 5 ++ query 1 4 3 ++ go 1 2 ++ query 2 2 1 ++ go 2 2 ++ go 1 6 ++ go 2 3)
    (p := fun s => decide (published s.g.tr = [(4, 3)] ∧ s.report = (4, 3) ∧
      (2, .known true 2 1) ∈ s.g.tr ∧ s.th 1 = [.app] ∧ s.th 2 = [.app])) (by decide +kernel)
  exact ⟨s, hr, of_decide_eq_true hp⟩

/-- C57 fails when two threads ask for the rank at the same time: the reported size is that of one
query and the reported rank that of the other. -/
theorem C57_torn : ∃ s, ReachA (fun _ l => l.i ≠ .unwind ∧ l.i ≠ .interrupt) s ∧
    s.th 1 = [.app] ∧ s.th 2 = [.app] ∧ published s.g.tr = [(2, 1), (4, 3)] ∧ s.report = (2, 3) := by
  obtain ⟨s, hr, hp⟩ := exists_of_run (A := fun _ l => l.i ≠ .unwind ∧ l.i ≠ .interrupt)
    (ls := initAll 1 5 ++ query 1 4 3 ++ query 2 2 1 ++ go 1 4 ++ go 2 4 ++ go 1 1 ++ go 2 1 ++ go 2 3 ++ go 1 3)
    (p := fun s => decide (s.th 1 = [.app] ∧ s.th 2 = [.app] ∧ published s.g.tr = [(2, 1), (4, 3)] ∧
      s.report = (2, 3))) (by decide +kernel)
  exact ⟨s, hr, of_decide_eq_true hp⟩

/-- C57 fails in the same way for what is reported: the client has been told one rank and is later told
another. -/
theorem C57_changed : ∃ s, ReachA (fun _ l => l.i ≠ .unwind ∧ l.i ≠ .interrupt) s ∧
    s.g.tr.filter (fun x => match x.2 with | .rankIs _ => true | _ => false) =
      [(1, .rankIs 1), (1, .rankIs 3)] := by
  obtain ⟨s, hr, hp⟩ := exists_of_run (A := fun _ l => l.i ≠ .unwind ∧ l.i ≠ .interrupt)
    (ls := initAll 1 5 ++ query 1 4 3 ++ query 2 2 1 ++ go 1 4 ++ go 2 4 ++ go 1 4 ++ call 1 .getRank ++
      go 2 4 ++ call 1 .getRank)
    (p := fun s => decide (s.g.tr.filter (fun x => match x.2 with | .rankIs _ => true | _ => false) =
      [(1, .rankIs 1), (1, .rankIs 3)])) (by decide +kernel)
  exact ⟨s, hr, of_decide_eq_true hp⟩

/-- C57 fails when the thread that stores the pair is cut short: the size is that of its query, and the
next query replaces it. -/
theorem C57_cut_short : ∃ s, ReachA (fun _ l => l.i ≠ .interrupt) s ∧ s.th 1 = [.app] ∧
    s.th 2 = [.app] ∧ published s.g.tr = [(2, 1), (4, 3)] ∧ s.report = (2, 1) ∧
    (2, .sizeIs 4) ∈ s.g.tr := by
  obtain ⟨s, hr, hp⟩ := exists_of_run (A := fun _ l => l.i ≠ .interrupt)
    (ls := initAll 1 5 ++ query 1 4 3 ++ go 1 5 ++ [⟨1, .unwind⟩] ++ call 2 .getSize ++ query 2 2 1 ++ go 2 8)
    (p := fun s => decide (s.th 1 = [.app] ∧ s.th 2 = [.app] ∧ published s.g.tr = [(2, 1), (4, 3)] ∧
      s.report = (2, 1) ∧ (2, .sizeIs 4) ∈ s.g.tr)) (by decide +kernel)
  exact ⟨s, hr, of_decide_eq_true hp⟩

/-- C57: a query that fails (one thread, no handlers) is published all the same: size -1 and whatever
the memory for the rank held, and the right values are refused ever after. -/
theorem C57_failed_query : ∃ s, ReachA OneSet s ∧ (1, .known false (-1) 12345) ∈ s.g.tr ∧
    (1, .known true 4 3) ∈ s.g.tr ∧ s.th 1 = [.app] ∧ s.report = (-1, 12345) := by
  obtain ⟨s, hr, hp⟩ := exists_of_run (A := OneSet)
    (ls := initAll 1 5 ++ call 1 (.commRank 0 false) ++ go 1 1 ++ back 1 ++ [⟨1, .go none 12345⟩] ++
      back 1 ++ go 1 9 ++ query 1 4 3 ++ go 1 1)
    (p := fun s => decide ((1, .known false (-1) 12345) ∈ s.g.tr ∧ (1, .known true 4 3) ∈ s.g.tr ∧
      s.th 1 = [.app] ∧ s.report = (-1, 12345))) (by decide +kernel)
  exact ⟨s, hr, of_decide_eq_true hp⟩

/-- C57: if no query has failed, the published pair is one that the client gave or a successful query
of the same thread returned. -/
theorem C57_known_partial {s : S} (h : Reach s)
    (hok : ∀ t a b, (t, .known false a b) ∉ s.g.tr) {t : Tid} {size rank : Int}
    (hp : (t, .publish size rank) ∈ s.g.tr) :
    (t, .clientSet size rank) ∈ s.g.tr ∨ (t, .known true size rank) ∈ s.g.tr := by
  rcases C57_source h hp with h1 | ⟨⟨ok, h1⟩, _⟩
  · exact .inl h1
  · cases ok
    · exact absurd h1 (hok _ _ _)
    · exact .inr h1

/-- C57: a value known while some thread runs the real MPI_Init is not used: the test that lets a value
pass (mpi.c:115) fails.

Missing: executions outside `Serial`. -/
theorem C57_not_during_init_partial {s s' : S} (h : ReachA Serial s) {t : Tid} {a : Option Int} {b : Int}
    {size rank : Int} {rest : List Frame} (hst : s.th t = .sm1 size rank :: rest)
    (hn : next s ⟨t, .go a b⟩ = some s') (hpass : s'.th t = .sm2 size rank :: rest) (u : Tid) :
    ∃ ps, phases .init u s.g.tr = some ps ∧ .inside ∉ ps := by
  have hI := inv_all h .init
  refine ⟨_, hI.phase u, fun hin => ?_⟩
  have h0 : s.g.initCount = 0 := by
    simp only [next, hst, fstep, Option.map_some, Option.some.injEq] at hn
    subst hn
    by_cases e : s.g.initCount = 0
    · exact e
    · simp only [if_true, e, if_false, List.nil_append] at hpass
      exact absurd (congrArg List.length hpass) (by simp)
  obtain ⟨o, h1, h2⟩ := hI.own
  have hu : ncalls .init (s.th u) ≠ 0 := fun e => by
    rw [phs_nil.2 e] at hin; cases hin
  have e : u = o := Classical.byContradiction fun e => hu (h1 u e)
  subst e
  have := inside_counts hin
  have h3 : s.g.initCount = wts .init (s.th u) := h2
  omega

/-- A value passes the test after the initialisation of another thread. -/
example : ∃ s s', ReachA Serial s ∧ s.th 2 = [.sm1 4 3, .app] ∧
    next s ⟨2, .go none 0⟩ = some s' ∧ s'.th 2 = [.sm2 4 3, .app] := by
  obtain ⟨s, hr, hp⟩ := exists_of_run (A := Serial) (ls := initAll 1 5 ++ query 2 4 3 ++ go 2 1)
    (p := fun s => decide (s.th 2 = [.sm1 4 3, .app] ∧
      ((next s ⟨2, .go none 0⟩).map fun s' => s'.th 2) = some [.sm2 4 3, .app])) (by decide +kernel)
  obtain ⟨h1, h2⟩ := of_decide_eq_true hp
  rw [Option.map_eq_some_iff] at h2
  obtain ⟨s', h2, h3⟩ := h2
  exact ⟨s, s', hr, h1, h2, h3⟩

/-- A query with a NULL pointer, which the MPI library would report as an error, is a NULL dereference
in the wrapper (mpi_comm_c.c:37). -/
theorem C57_null_rank : ∃ s, ReachA (fun _ l => l.t = 1) s ∧ (1, .ub) ∈ s.g.tr := by
  obtain ⟨s, hr, hp⟩ := exists_of_run (A := fun _ l => l.t = 1)
    (ls := initAll 1 5 ++ call 1 (.commRank 0 true) ++ go 1 1 ++ back 1 ++ go 1 1 ++ back 1 ++ go 1 1)
    (p := fun s => decide ((1, .ub) ∈ s.g.tr)) (by decide +kernel)
  exact ⟨s, hr, of_decide_eq_true hp⟩

end Libmonitor.MpiC
