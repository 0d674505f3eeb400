import Verif.Proc.BottomInv
/-!
# C62: monitor_stack_bottom and monitor_get_addr_thread_start report the caller's own values
-/

namespace Libmonitor.Proc

/-- Main's record has no start routine. -/
theorem main_start {A : S → Lbl → Prop} {s : S} (hs : ReachA A s) : s.g.main.start = 0 := by
  refine glob_inv (GI := fun g => g.main.start = 0) rfl ?_ (fun _ h => h) (fun _ h => h) hs
  intro s t f rest ok v g' nx sp hr _ ht hG h
  obtain ⟨hfree, hrec⟩ := rec_inv hr
  have hrec := hrec t f (by rw [ht]; exact List.mem_cons_self)
  clear ht
  cases f <;> fstep_cases h <;> first
    | exact hG
    | skip
  all_goals simp only [G.main, G.emit, G.upd, if_true] at hG ⊢
  all_goals try (split <;> first
    | exact hG
    | (rename_i e; exact absurd (by rw [← e]; rfl) hrec)
    | (rename_i e; exact absurd e.symm (alloc_ne_main hfree (by assumption)).1))
  all_goals
    simp only [resetList]
    split
    · simp only [if_true, resetMain]
      split
      · exact hG
      · split
        · exact hG
        · rfl
    · exact hG

/-- C62, threads made by pthread_create and not ignored: from the moment the thread is on the list, and
until its cleanup routine is over, it gets its own stack bottom and the start routine of the
pthread_create that made it.

Missing: executions outside `Clean`; threads in the destructors of their thread-specific data
(`C62_dying`). -/
theorem C62_created_partial {x : B} (hx : ReachB Clean x) {u w : Tid} {c st ar : Nat} {d : Data}
    {k : Int} (hu : live x.s u) (hm : u ≠ mainOf x.s.g.tr)
    (hw : madeBy x.s.g.tr u w c st ar (some d)) (hk : (u, .linked k) ∈ x.s.g.tr) :
    stackBottom x u = some u ∧ threadStart x.s.g u = st := by
  have hs := reachB_s hx
  obtain ⟨f, rest, ht⟩ := List.exists_cons_of_ne_nil hu.1
  have hft : f ∈ x.s.th u := by rw [ht]; exact List.mem_cons_self
  have hfd : f ≠ .tdtor := by
    intro e; subst e
    have h := shape_inv hs u
    rw [ht] at h
    exact hu.2 (by rw [ht, h.1 rfl])
  have hb := (born_of_live hs hft hm).2
  obtain ⟨n, hn⟩ := getTn_linked hs ht hfd hm hk
  obtain ⟨f', h1, h2, h3, _⟩ := getTn_rec hs ht hfd hm hn
  have hmine := getTn_mine hs hb hu.1 hn
  have hnm : n ≠ .main := by
    rcases hmine with ⟨_, e⟩ | ⟨e, _⟩
    · exact absurd e hm
    · exact e
  refine ⟨?_, ?_⟩
  · simp [stackBottom, hn, created_bot hx hs hmine hnm hu.1 hu.2]
  · obtain ⟨w', c', d', h4, _⟩ := h3.spawned
    have := (C11_made_once (reach_of_reachA hs) hw
      (show madeBy x.s.g.tr u w' c' _ _ (some d') from ⟨n, h4⟩)).2.2.1
    simp only [threadStart, hn, this]

/-- C62, ignored threads: NULL and NULL.

Missing: executions outside `Clean`. -/
theorem C62_ignored_partial {x : B} (hx : ReachB Clean x) {u w : Tid} {c st ar : Nat}
    (hu : live x.s u) (hm : u ≠ mainOf x.s.g.tr) (hw : madeBy x.s.g.tr u w c st ar none) :
    stackBottom x u = none ∧ threadStart x.s.g u = 0 := by
  have hs := reachB_s hx
  obtain ⟨f, rest, ht⟩ := List.exists_cons_of_ne_nil hu.1
  have hft : f ∈ x.s.th u := by rw [ht]; exact List.mem_cons_self
  have hb := (born_of_live hs hft hm).2
  have hn : getTn x.s.g u = none := by
    cases hn : getTn x.s.g u with
    | none => rfl
    | some n =>
      obtain ⟨w', c', st', ar', d', h⟩ := (C10_own_record_partial hs hb hu (Or.inl hn)).2 hm
      have := (C11_made_once (reach_of_reachA hs) hw
        (show madeBy x.s.g.tr u w' c' _ _ (some d') from ⟨n, h⟩)).2.2.2.2
      cases this
  simp [stackBottom, threadStart, hn]

/-- C62, the initial thread (in a child: the thread that called fork): it gets its own stack bottom,
as soon as monitor_at_main was called in the process or an ancestor (before that, possibly NULL), and no
start routine.

Missing: executions outside `Clean`; children of threads that were ignored (`C62_ignored_forks`). -/
theorem C62_main_partial {x : B} (hx : ReachB CleanKnown x) (hb : born x.s.g.tr = false) :
    let m := mainOf x.s.g.tr
    (stackBottom x m = some m ∨ (stackBottom x m = none ∧ ∀ u, (u, .atMain) ∉ x.s.g.tr)) ∧
      threadStart x.s.g m = 0 := by
  have hs := reachB_clean hx
  have e := main_getTn hs hb
  obtain ⟨n, h1, h2⟩ := mainBot_inv hx
  refine ⟨?_, ?_⟩
  · simp only [stackBottom]
    rw [h1]
    rcases h2 with h2 | ⟨rfl, h3, _, h4⟩
    · exact Or.inl h2
    · exact Or.inr ⟨h3, h4⟩
  · simp only [threadStart, e]
    exact main_start hs

/-- Main, two created threads; an ignored one (thread 3). -/
def withIgnored : List Lbl :=
  three ++ C 0 (.create 90 91) ++ T 0 6 ++ V 0 ignoreData ++ T 0 1 ++ T 3 1

example : ∃ x, ReachB CleanKnown x ∧ born x.s.g.tr = false ∧ mainOf x.s.g.tr = 0 ∧
    (∃ u, (u, .atMain) ∈ x.s.g.tr) ∧ live x.s 2 ∧ (2, .linked 2) ∈ x.s.g.tr ∧
    madeBy x.s.g.tr 2 0 1 80 81 (some 10) ∧ live x.s 3 ∧ madeBy x.s.g.tr 3 0 2 90 91 none ∧
    stackBottom x 0 = some 0 ∧ stackBottom x 2 = some 2 ∧ threadStart x.s.g 2 = 80 ∧
    stackBottom x 3 = none := by
  obtain ⟨x, hr, hp⟩ := exists_of_runB (A := CleanKnown) (ls := withIgnored)
    (p := fun x => decide (born x.s.g.tr = false ∧ mainOf x.s.g.tr = 0 ∧
      (0, .atMain) ∈ x.s.g.tr ∧ live x.s 2 ∧ (2, .linked 2) ∈ x.s.g.tr ∧
      (0, .spawn 1 2 (.slot 0 1) 80 81 10) ∈ x.s.g.tr ∧ live x.s 3 ∧
      (0, .spawnIgn 2 3 90 91) ∈ x.s.g.tr ∧
      stackBottom x 0 = some 0 ∧ stackBottom x 2 = some 2 ∧ threadStart x.s.g 2 = 80 ∧
      stackBottom x 3 = none)) (by decide +kernel)
  obtain ⟨h1, h2, h3, h4, h5, h6, h7, h8, h9⟩ := of_decide_eq_true hp
  exact ⟨x, hr, h1, h2, ⟨_, h3⟩, h4, h5, ⟨_, h6⟩, h7, h8, h9⟩

/-- Thread 1 forks; in the child it is the initial thread, with its own stack bottom. -/
example : ∃ x, ReachB CleanKnown x ∧ born x.s.g.tr = false ∧ mainOf x.s.g.tr = 1 ∧
    stackBottom x 1 = some 1 ∧ threadStart x.s.g 1 = 0 := by
  obtain ⟨x, hr, hp⟩ := exists_of_runB (A := CleanKnown)
    (ls := three ++ C 1 .fork ++ T 1 1 ++ V 1 9 ++ [.fork 1] ++ T 1 7)
    (p := fun x => decide (born x.s.g.tr = false ∧ mainOf x.s.g.tr = 1 ∧
      stackBottom x 1 = some 1 ∧ threadStart x.s.g 1 = 0)) (by decide +kernel)
  exact ⟨x, hr, of_decide_eq_true hp⟩

/-- C62 fails in the child of a thread that the library was told to ignore (pthread.c:335-337): the
initial thread of the child, which is thread 3, gets the stack bottom of the parent's main
thread, which does not exist there. -/
theorem C62_ignored_forks : ∃ x, ReachB Clean x ∧ born x.s.g.tr = false ∧ mainOf x.s.g.tr = 3 ∧
    stackBottom x 3 = some 0 ∧ x.s.th 0 = [] := by
  obtain ⟨x, hr, hp⟩ := exists_of_runB (A := Clean)
    (ls := withIgnored ++ C 3 .fork ++ T 3 1 ++ V 3 9 ++ [.fork 3] ++ T 3 7)
    (p := fun x => decide (born x.s.g.tr = false ∧ mainOf x.s.g.tr = 3 ∧
      stackBottom x 3 = some 0 ∧ x.s.th 0 = [])) (by decide +kernel)
  exact ⟨x, hr, of_decide_eq_true hp⟩

/-- C62 fails for a thread in the destructors of its thread-specific data: its record belongs to
thread 3 by now, whose stack bottom and start routine it gets. -/
theorem C62_dying : ∃ x, ReachB (fun _ _ => True) x ∧ x.s.th 1 = [.tdtor] ∧
    (1, .start 70 71) ∈ x.s.g.tr ∧ stackBottom x 1 = some 3 ∧ threadStart x.s.g 1 = 90 := by
  obtain ⟨x, hr, hp⟩ := exists_of_runB (A := fun _ _ => True) (ls := recordReused)
    (p := fun x => decide (x.s.th 1 = [.tdtor] ∧
      (1, .start 70 71) ∈ x.s.g.tr ∧ stackBottom x 1 = some 3 ∧ threadStart x.s.g 1 = 90))
    (by decide +kernel)
  exact ⟨x, hr, of_decide_eq_true hp⟩

end Libmonitor.Proc
