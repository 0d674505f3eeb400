import Verif.Once.First

/-!
# C83: one-time initialisation
-/

namespace Libmonitor.Once

/-- C83, the part that holds: as long as no call tests a flag while another call is between testing and
setting it, each guarded function runs at most once, also in forked children, and so monitor_init_library is
called at most once.  Missing: see `C83_twice`. -/
theorem C83_once_partial {s : S} (hs : ReachA NoRace s) : (∀ x, runs x s.tr ≤ 1) ∧ libs s.tr ≤ 1 := by
  refine ⟨fun x => ?_, (lib_inv hs).le⟩
  have h := once_inv (x := x) hs
  cases e : s.run x with
  | false => rw [h.clear e]; exact Nat.zero_le _
  | true => rw [(h.set e).1]; exact Nat.le_refl _

/-- C83, the part that holds: as long as nobody calls monitor_early_init or monitor_normal_init while a call
is in the middle of it, everybody who has returned from one of them, and every callback, finds the record of
the main thread initialised, and the user data in it is always what was set last.  Missing: see `C83_unready`
and `C83_wiped`. -/
theorem C83_record_partial {s : S} (hs : ReachA Serial s) :
    s.data = lastData s.tr ∧ ∀ e ∈ s.tr, Behind e → s.magic = true :=
  ⟨(inv_reach hs).dat, fun e he hb => ((inv_reach hs).seen e he hb).magic⟩

/-- C83 for programs in which the library's constructor, or whoever initialises first, has finished before
other threads and signal handlers come: all of it holds, whatever the callbacks do, longjmp and forks
included, and whatever anybody does afterwards. -/
theorem C83_library_first {s : S} (hs : ReachA LibraryFirst s) : (∀ x, runs x s.tr ≤ 1) ∧ libs s.tr ≤ 1 ∧
    s.data = lastData s.tr ∧ ∀ e ∈ s.tr, Behind e → s.magic = true :=
  have h := first_reach hs
  have h1 := C83_once_partial h.1
  have h2 := C83_record_partial h.2.1
  ⟨h1.1, h1.2, h2.1, h2.2⟩

def execs (s : S) : List Lbl → Option S
  | [] => some s
  | l :: ls => match next s l with
    | some s' => execs s' ls
    | none => none

theorem reach_execs {A : S → Lbl → Prop} {s s' : S} (hs : ReachA A s) :
    ∀ {ls}, (∀ l ∈ ls, ∀ s, A s l) → execs s ls = some s' → ReachA A s' := by
  intro ls
  induction ls generalizing s with
  | nil => intro _ h; cases h; exact hs
  | cons l ls ih =>
    intro ha h
    simp only [execs] at h
    split at h
    · rename_i s1 h1
      exact ih (.next hs (ha l List.mem_cons_self s) h1) (fun l hl => ha l (List.mem_cons_of_mem _ hl)) h
    · cases h

theorem exists_execs {A : S → Lbl → Prop} {ls : List Lbl} {r : List Ev × Bool × Data} (ha : ∀ l ∈ ls, ∀ s, A s l)
    (h : (execs {} ls).map (fun s => (s.tr, s.magic, s.data)) = some r) :
    ∃ s, ReachA A s ∧ s.tr = r.1 ∧ s.magic = r.2.1 ∧ s.data = r.2.2 := by
  cases e : execs {} ls with
  | none => rw [e] at h; cases h
  | some s =>
    rw [e] at h
    have h := Option.some.inj h
    exact ⟨s, reach_execs .init ha e, congrArg (·.1) h, congrArg (·.2.1) h, congrArg (·.2.2) h⟩

def g : Lbl := .go 0 0

/-- C83 is false as stated: the constructor is interrupted between testing and setting, and the handler makes
a thread; monitor_init_library is called twice. -/
theorem C83_twice : ∃ s, Reach s ∧ libs s.tr = 2 ∧ runs .lib s.tr = 2 := by
  obtain ⟨s, hs, h, -, -⟩ := exists_execs (A := fun _ _ => True) (ls := [.call 0 .ctor, g, .interrupt 0,
    .call 0 .process] ++ List.replicate 22 g) (fun _ _ _ => trivial)
    (r := ([.initLibrary 0, .skip .normal 0, .ran .lib 0, .data 1 0, .initProcess 1 0, .fin .lib 1,
      .initLibraryRet 1, .initLibrary 1, .skip .normal 1, .ran .lib 1, .fin .normal 1, .fin .early 1,
      .ran .early 1, .ran .normal 1], true, 0)) (by decide +kernel)
  exact ⟨s, hs, by rw [h]; decide, by rw [h]; decide⟩

/-- C83 is false as stated, also if every function runs once only: a handler that interrupts
monitor_early_init and makes a thread gets past both functions at once, and monitor_init_process is called
while the record of the main thread is not initialised, and before monitor_init_library. -/
theorem C83_unready : ∃ s, Reach s ∧ (∀ x, runs x s.tr ≤ 1) ∧ (∃ c d, Ev.initProcess c d ∈ s.tr) ∧
    s.magic = false ∧ libs s.tr = 0 := by
  obtain ⟨s, hs, h, hm, -⟩ := exists_execs (A := fun _ _ => True) (ls := [.call 0 .ctor] ++
    List.replicate 6 g ++ [.interrupt 0, .call 0 .process] ++ List.replicate 5 g) (fun _ _ _ => trivial)
    (r := ([.initProcess 1 0, .skip .lib 1, .skip .normal 1, .ran .early 0, .ran .normal 0, .ran .lib 0], false, 0))
    (by decide +kernel)
  refine ⟨s, hs, ?_, ⟨1, 0, by simp [h]⟩, hm, by rw [h]; decide⟩
  intro x; rw [h]; cases x <;> decide

/-- C83 is false as stated: the user data that the callback has given the handler's call, 7, is cleared
when the interrupted monitor_early_init goes on. -/
theorem C83_wiped : ∃ s, Reach s ∧ (∀ x, runs x s.tr ≤ 1) ∧ Ev.data 1 7 ∈ s.tr ∧ lastData s.tr = 7 ∧
    s.data = 0 := by
  obtain ⟨s, hs, h, -, hd⟩ := exists_execs (A := fun _ _ => True) (ls := [.call 0 .ctor] ++
    List.replicate 6 g ++ [.interrupt 0, .call 0 .process] ++ List.replicate 6 g ++ [.go 0 7, g, g])
    (fun _ _ _ => trivial)
    (r := ([.data 1 7, .initProcess 1 0, .skip .lib 1, .skip .normal 1, .ran .early 0, .ran .normal 0,
      .ran .lib 0], false, 0))
    (by decide +kernel)
  refine ⟨s, hs, ?_, by simp [h], by rw [h]; rfl, hd⟩
  intro x; rw [h]; cases x <;> decide

/-- The order of monitor_init_library and monitor_init_process is not guaranteed even in one thread: a
monitor_init_library that makes a thread has monitor_init_process called before it has returned. -/
theorem C83_recursion : ∃ s, ReachA Calm s ∧ (∃ c d, Ev.initProcess c d ∈ s.tr) ∧
    ∀ c, Ev.initLibraryRet c ∉ s.tr := by
  obtain ⟨s, hs, h, -, -⟩ := exists_execs (A := Calm) (ls := [.call 0 .ctor] ++ List.replicate 10 g ++
    [.call 0 .process] ++ List.replicate 5 g)
    (by
      intro l hl _
      simp only [List.mem_append, List.mem_cons, List.mem_replicate, List.not_mem_nil, or_false] at hl
      rcases hl with ((rfl | ⟨-, rfl⟩) | rfl) | ⟨-, rfl⟩ <;> rfl)
    (r := ([.initProcess 1 0, .skip .lib 1, .skip .normal 1, .initLibrary 0, .fin .normal 0, .fin .early 0,
      .ran .early 0, .ran .normal 0, .ran .lib 0], true, 0)) (by decide +kernel)
  exact ⟨s, hs, ⟨1, 0, by simp [h]⟩, by simp [h]⟩

/-- The hypothesis of `C83_library_first`, checked along an execution. -/
def libraryFirst (s : S) : List Lbl → Bool
  | [] => true
  | l :: ls =>
    (s.tr.any (fun e => match e with | .fin .lib _ => true | _ => false) ||
      match l with
      | .go t _ | .call t _ | .fork t _ | .unwind t _ => t == 0
      | .interrupt _ => false) &&
    match next s l with
    | some s' => libraryFirst s' ls
    | none => true

theorem reach_first {s s' : S} (hs : ReachA LibraryFirst s) :
    ∀ {ls}, libraryFirst s ls = true → execs s ls = some s' → ReachA LibraryFirst s' := by
  intro ls
  induction ls generalizing s with
  | nil => intro _ h; cases h; exact hs
  | cons l ls ih =>
    intro ha h
    simp only [execs] at h
    simp only [libraryFirst, Bool.and_eq_true, Bool.or_eq_true] at ha
    split at h
    · rename_i s1 h1
      rw [h1] at ha
      refine ih (.next hs (fun hc => ?_) h1) ha.2 h
      rcases ha.1 with k | k
      · obtain ⟨e, he, k⟩ := List.any_eq_true.1 k
        split at k
        · exact absurd he (hc _)
        · cases k
      · cases l <;> first | exact beq_iff_eq.1 k | cases k
    · cases h

def exampleRun : List Lbl := [.call 0 .ctor] ++ List.replicate 12 g ++ [.call 0 .process, g, g, .interrupt 0,
  .call 0 .process, .call 1 .early, g, .go 1 0, g, g] ++ List.replicate 4 g ++ [.go 0 5, .fork 1 8] ++
  List.replicate 7 (.go 1 0) ++ [.go 1 9]
def exampleTr : List Ev := [.data 4 9, .initProcess 4 8, .skip .lib 4, .data 4 8, .skip .normal 4, .fork,
  .data 1 5, .initProcess 1 0, .skip .lib 1, .skip .early 3, .skip .normal 2, .skip .normal 1, .fin .lib 0,
  .initLibraryRet 0, .initLibrary 0, .fin .normal 0, .fin .early 0, .ran .early 0, .ran .normal 0, .ran .lib 0]

/-- An execution as in `C83_library_first`: the constructor; main, which is interrupted by a handler that
makes a thread, while another thread calls too; a fork in that thread, where the callback sets 9. -/
example : ∃ s, ReachA LibraryFirst s ∧ ReachA NoRace s ∧ ReachA Serial s ∧ Ev.fork ∈ s.tr ∧ libs s.tr = 1 ∧ Ev.data 1 5 ∈ s.tr ∧
    Ev.initProcess 4 8 ∈ s.tr ∧ Ev.skip .normal 2 ∈ s.tr ∧ s.data = 9 := by
  have h : ∃ s, execs {} exampleRun = some s ∧ s.tr = exampleTr ∧ s.data = 9 := by
    have : (execs {} exampleRun).map (fun s => (s.tr, s.data)) = some (exampleTr, 9) := by decide +kernel
    cases e : execs {} exampleRun with
    | none => rw [e] at this; cases this
    | some s =>
      rw [e] at this
      exact ⟨s, rfl, congrArg (·.1) (Option.some.inj this), congrArg (·.2) (Option.some.inj this)⟩
  obtain ⟨s, e, h, hd⟩ := h
  have hs := reach_first .init (by decide +kernel) e
  refine ⟨s, hs, (first_reach hs).1, (first_reach hs).2.1, ?_, ?_, ?_, ?_, ?_, hd⟩ <;> rw [h] <;> decide

end Libmonitor.Once
