import Verif.Fork.Lemmas

/-!
# C32–C35, C46: environment copy, variadic exec, PATH search, system()
-/

namespace Libmonitor.Fork

/-! ## C32 -/

open Classical in
/-- **C32** (what holds of "without LD_PRELOAD").  For every environment of any length, every
page size and every content of the static array: no write outside the new array; the only
failure is a failing mmap/sysconf with a large environment; the copy is NULL terminated
and is the original in its order with exactly the entries containing the text LD_PRELOAD
*anywhere* removed.  Missing: only the variable LD_PRELOAD itself should be removed, see
`C32_other_variable_dropped`. -/
theorem C32_environ_copy_partial (oldenv : List Ptr) (l : List Str) (hold : Spec.Holds oldenv l)
    (sysconf : Int) (mmapOk : Bool) (static : List Ptr) (hst : static.length = 250)
    (hl : l.length < 2 ^ 32) (hsc : sysconf = -1 ∨ (0 ≤ sysconf ∧ sysconf < 2 ^ 62)) :
    (copyEnviron oldenv sysconf mmapOk static = .err ∧ 248 < l.length ∧
      (mmapOk = false ∨ sysconf = -1)) ∨
    (∃ new, copyEnviron oldenv sysconf mmapOk static = .ret new ∧
      Spec.Holds new (l.filter fun s => ¬ Spec.Occurs "LD_PRELOAD".toList s)) := by
  rcases copyEnviron_spec oldenv l hold sysconf mmapOk static hst hl hsc with ⟨new, h1, h2⟩ | ⟨h1, h2, h3⟩
  · right
    refine ⟨new, h1, ?_⟩
    have : (l.filter fun s => ¬ Spec.Occurs "LD_PRELOAD".toList s) =
        l.filter fun s => !contains ldPreload s := by
      apply List.filter_congr
      intro s _
      rw [Bool.eq_iff_iff, decide_eq_true_eq, Bool.not_eq_true', ← Bool.not_eq_true, contains_iff]
      rfl
    rw [this]; exact h2
  · left
    have : initEnvironSize = 250 := rfl
    exact ⟨h1, by omega, h3⟩

open Classical in
/-- **C32** in the intended words: if no entry mentions LD_PRELOAD except those that define
it, the copy is the original without the definitions of LD_PRELOAD. -/
theorem C32_environ_copy_intended_partial (oldenv : List Ptr) (l : List Str)
    (hold : Spec.Holds oldenv l)
    (sysconf : Int) (mmapOk : Bool) (static : List Ptr) (hst : static.length = 250)
    (hl : l.length < 2 ^ 32) (hsc : sysconf = -1 ∨ (0 ≤ sysconf ∧ sysconf < 2 ^ 62))
    (hmention : ∀ s ∈ l, Spec.Occurs "LD_PRELOAD".toList s → Spec.Defines "LD_PRELOAD".toList s)
    (new : List Ptr) (h : copyEnviron oldenv sysconf mmapOk static = .ret new) :
    Spec.Holds new (l.filter fun s => ¬ Spec.Defines "LD_PRELOAD".toList s) := by
  rcases C32_environ_copy_partial oldenv l hold sysconf mmapOk static hst hl hsc with
    ⟨h1, _⟩ | ⟨new', h1, h2⟩
  · rw [h1] at h; cases h
  · rw [h1] at h; cases h
    have : (l.filter fun s => ¬ Spec.Defines "LD_PRELOAD".toList s) =
        l.filter fun s => ¬ Spec.Occurs "LD_PRELOAD".toList s := by
      apply List.filter_congr
      intro s hs
      have : Spec.Defines "LD_PRELOAD".toList s ↔ Spec.Occurs "LD_PRELOAD".toList s :=
        ⟨fun ⟨v, hv⟩ => ⟨[], '=' :: v, by simp [hv]⟩, hmention s hs⟩
      simp only [this]
    rw [this]; exact h2

example : ∀ s ∈ ["A=1".toList, "LD_PRELOAD=/m.so".toList], Spec.Occurs "LD_PRELOAD".toList s →
    Spec.Defines "LD_PRELOAD".toList s := by
  intro s hs ho
  simp only [List.mem_cons, List.not_mem_nil, or_false] at hs
  rcases hs with rfl | rfl
  · exfalso
    have := (contains_iff _ _).2 ho
    revert this; decide +kernel
  · exact ⟨"/m.so".toList, by decide +kernel⟩

open Classical in
/-- **C32.**  The child is never preloaded: no entry of the copy defines LD_PRELOAD. -/
theorem C32_no_preload (oldenv : List Ptr) (l : List Str) (hold : Spec.Holds oldenv l)
    (sysconf : Int) (mmapOk : Bool) (static : List Ptr) (hst : static.length = 250)
    (hl : l.length < 2 ^ 32) (hsc : sysconf = -1 ∨ (0 ≤ sysconf ∧ sysconf < 2 ^ 62))
    (new : List Ptr) (h : copyEnviron oldenv sysconf mmapOk static = .ret new) :
    ∃ kept, Spec.Holds new kept ∧ ∀ s ∈ kept, ¬ Spec.Defines "LD_PRELOAD".toList s := by
  rcases C32_environ_copy_partial oldenv l hold sysconf mmapOk static hst hl hsc with
    ⟨h1, _⟩ | ⟨new', h1, h2⟩
  · rw [h1] at h; cases h
  · rw [h1] at h; cases h
    refine ⟨_, h2, fun s hs ⟨v, hv⟩ => ?_⟩
    exact (of_decide_eq_true (List.mem_filter.1 hs).2) ⟨[], '=' :: v, by simp [hv]⟩

/-- A large environment (more than the static array holds) meets the hypotheses. -/
example : ∃ oldenv l, Spec.Holds oldenv l ∧ 248 < l.length ∧ l.length < 2 ^ 32 :=
  ⟨(List.replicate 300 "A=b".toList).map some ++ [none], List.replicate 300 "A=b".toList,
    ⟨[], rfl⟩, by rw [List.length_replicate]; omega, by rw [List.length_replicate]; omega⟩

example : copyEnviron [some "A=1".toList, some "LD_PRELOAD=/m.so".toList, some "B=2".toList, none]
    4096 true (List.replicate 250 none) =
    .ret (some "A=1".toList :: some "B=2".toList :: List.replicate 248 none) := by decide +kernel

/-- The full claim "exactly LD_PRELOAD is removed" is false: a variable whose value (or name)
merely mentions LD_PRELOAD is lost. -/
theorem C32_other_variable_dropped :
    ∃ (s : Str), ¬ Spec.Defines "LD_PRELOAD".toList s ∧
      copyEnviron [some s, none] 4096 true (List.replicate 250 none) =
        .ret (List.replicate 250 none) := by
  refine ⟨"NOTE=see LD_PRELOAD".toList, ?_, by decide +kernel⟩
  rintro ⟨v, hv⟩
  have := congrArg List.head? hv
  simp at this

/-! ## C33 -/

/-- **C33** (with the first argument not NULL).  For every argument list of any length the
array form receives exactly `first :: l` and the NULL; for execle the envp is the argument
after the NULL.  No argument beyond is read (`rest` is not touched: it may be empty for
execl/execlp), all stores are inside the arrays, and the only failure is a failing malloc.
Missing: a NULL first argument, see `C33_null_first_ub`. -/
theorem C33_variadic_args_partial (junk : Ptr) (first : Str) (l : List Str) (rest : List Ptr)
    (mallocs : Nat → Bool) :
    ((∃ argv, copyVaArgs junk (some first) (l.map some ++ none :: rest) false mallocs =
          .ret (argv, none) ∧ Spec.Holds argv (first :: l)) ∨
      (copyVaArgs junk (some first) (l.map some ++ none :: rest) false mallocs = .err ∧
        ∃ k, mallocs k = false)) ∧
    (∀ env rest', rest = env :: rest' →
      (∃ argv, copyVaArgs junk (some first) (l.map some ++ none :: rest) true mallocs =
          .ret (argv, some env) ∧ Spec.Holds argv (first :: l)) ∨
      (copyVaArgs junk (some first) (l.map some ++ none :: rest) true mallocs = .err ∧
        ∃ k, mallocs k = false)) := by
  have hst : store (List.replicate initArgvSize junk) 0 (some first) =
      .ret ([some first] ++ List.replicate 63 junk) := rfl
  have key := vaLoop_spec junk l rest [some first] (List.replicate 63 junk) mallocs (by simp) (by simp)
  have e1 : ([some first] ++ List.replicate 63 junk).length = initArgvSize := by
    simp [initArgvSize]
  have e2 : ([some first] : List Ptr).length = 1 := rfl
  rw [e1, e2] at key
  constructor
  · unfold copyVaArgs
    simp only [hst, bind_ret]
    rcases key with ⟨t, ht⟩ | ⟨he, hk⟩
    · left; rw [ht]; exact ⟨_, rfl, t, by simp⟩
    · right; rw [he]; exact ⟨rfl, hk⟩
  · rintro env rest' rfl
    unfold copyVaArgs
    simp only [hst, bind_ret]
    rcases key with ⟨t, ht⟩ | ⟨he, hk⟩
    · left; rw [ht]; exact ⟨_, rfl, t, by simp⟩
    · right; rw [he]; exact ⟨rfl, hk⟩

/-- **C33.**  The whole of execl/execlp: when it gets to the real call, that call has exactly
the argument strings given. -/
theorem C33_execl_real_call_partial (dynamic : Bool) (access : Str → Bool) (path : Option Str) (k : Kind)
    (file : Option Str) (junk : Ptr) (first : Str) (l : List Str) (rest : List Ptr)
    (mallocs : Nat → Bool) (evs : List Ev)
    (h : execlCall dynamic access path k file junk (some first) (l.map some ++ none :: rest)
      mallocs = .ret evs) :
    ∃ argv, evs.getLast? = some (.real k file argv none) ∧ Spec.Holds argv (first :: l) := by
  unfold execlCall at h
  rcases (C33_variadic_args_partial junk first l rest mallocs).1 with ⟨argv, h1, h2⟩ | ⟨h1, _⟩
  · rw [h1] at h
    simp only [bind_ret, execCall] at h
    refine ⟨argv, ?_, h2⟩
    cases k <;> simp only at h
    · injection h with h; rw [← h]; simp
    · cases hx : isExecutable access path file with
      | ub => rw [hx] at h; cases h
      | err => rw [hx] at h; cases h
      | ret b => rw [hx] at h; injection h with h; rw [← h]; simp
    · injection h with h; rw [← h]; simp
  · rw [h1] at h; cases h

/-- 200 arguments: the array is grown twice. -/
example : ∃ argv, copyVaArgs none (some "ls".toList)
    ((List.replicate 200 "x".toList).map some ++ none :: [some "ENV".toList]) true (fun _ => true) =
      .ret (argv, some (some "ENV".toList)) ∧ Spec.Holds argv ("ls".toList :: List.replicate 200 "x".toList) := by
  rcases (C33_variadic_args_partial none "ls".toList (List.replicate 200 "x".toList)
    [some "ENV".toList] (fun _ => true)).2 _ _ rfl with h | ⟨_, _, h⟩
  · exact h
  · cases h

/-- `execl(path, NULL)` (an empty argument list): the code reads an argument that was never
passed. -/
theorem C33_null_first_ub (junk : Ptr) (mallocs : Nat → Bool) :
    copyVaArgs junk none [] false mallocs = .ub := rfl

/-- `execle(path, NULL, envp)`: the environment is taken for an argument string and the
code reads past the arguments. -/
theorem C33_null_first_execle_ub (junk : Ptr) (env : Str) :
    copyVaArgs junk none [some env] true (fun _ => true) = .ub := rfl

/-! ## C34 -/

/-- **C34**, execv and execve.  The real call is always made, once, last and with the
arguments unchanged; the exit callbacks come before it, once, exactly if the path passes
access(X_OK).  Missing: a directory passes that test although exec cannot run it, see
`C34_directory`; so "executable" is `runnable` only off directories. -/
theorem C34_execve_partial (dynamic : Bool) (fs : Str → Spec.Node) (path : Option Str) (k : Kind)
    (hk : k = .execv ∨ k = .execve) (file : Option Str) (argv : List Ptr)
    (env : Option (List Ptr)) (hdir : ∀ f, file = some f → fs f ≠ .dir) :
    execCall dynamic (Spec.access fs) path k file argv env =
      .ret ((if ∃ f, file = some f ∧ Spec.runnable fs f = true then
          .endProcess :: (if dynamic then [.endLibrary] else []) else []) ++
        [.real k file argv env]) := by
  have hb : ∀ f, file = some f → Spec.access fs f = Spec.runnable fs f := by
    intro f hf
    have := hdir f hf
    unfold Spec.access Spec.runnable
    cases h : fs f with
    | missing => rfl
    | dir => exact absurd h this
    | file x => cases x <;> rfl
  have hgoal : ∀ b : Bool, (b = true ↔ ∃ f, file = some f ∧ Spec.runnable fs f = true) →
      (Res.ret ((if b then .endProcess :: (if dynamic then [.endLibrary] else []) else []) ++
        [.real k file argv env]) : Res (List Ev)) =
      .ret ((if ∃ f, file = some f ∧ Spec.runnable fs f = true then
          .endProcess :: (if dynamic then [.endLibrary] else []) else []) ++
        [.real k file argv env]) := by
    intro b hbb
    by_cases h : b = true
    · rw [if_pos h, if_pos (hbb.1 h)]
    · rw [if_neg h, if_neg (fun hx => h (hbb.2 hx))]
  rcases hk with rfl | rfl
  all_goals
    unfold execCall
    simp only [bind_ret]
    apply hgoal
    cases file with
    | none => simp
    | some f => simp [hb f rfl]

/-- What the PATH search of the code computes, in terms of the elements of PATH. -/
theorem isExecutable_eq (access : Str → Bool) (path file : Str)
    (hslash : '/' ∉ file)
    (hfit : ∀ e ∈ Spec.split path, e.length + file.length + 2 ≤ 4096) :
    isExecutable access (some path) (some file) =
      .ret ((Spec.split path).any fun e => e ≠ [] && access (e ++ '/' :: file)) := by
  simp only [isExecutable]
  rw [if_neg hslash]
  rw [searchLoop_eq _ _ _ _ (by have := skipColons_length path; omega) (skipColons_head path),
    parts_skip, searchList_fit]
  · simp [parts, List.any_filter]
  · intro e he
    exact hfit e (List.mem_filter.1 he).1

/-- **C34**, execvp.  With PATH set, elements short enough, a non-empty name, no directory
where a file is looked for, and nothing runnable of that name in the current directory
if PATH has an empty element: the exit callbacks are delivered exactly if execvp will find
something to run.  Missing: the five situations excluded by these hypotheses, each of
which is a real disagreement (`C34_path_unset_ub`, `C34_path_too_long_ub`,
`C34_empty_name`, `C34_directory`, `C34_empty_element`). -/
theorem C34_execvp_partial (dynamic : Bool) (fs : Str → Spec.Node) (dflt path file : Str)
    (argv : List Ptr)
    (hne : file ≠ [])
    (hfit : ∀ e ∈ Spec.split path, e.length + file.length + 2 ≤ 4096)
    (hdir : fs file ≠ .dir ∧ ∀ e ∈ Spec.split path, fs (e ++ '/' :: file) ≠ .dir)
    (hcwd : [] ∈ Spec.split path → '/' ∉ file → Spec.runnable fs file = false) :
    execCall dynamic (Spec.access fs) (some path) .execvp (some file) argv none =
      .ret ((if Spec.execvpRuns fs dflt (some path) file then
          .endProcess :: (if dynamic then [.endLibrary] else []) else []) ++
        [.real .execvp (some file) argv none]) := by
  have hb : ∀ p, fs p ≠ .dir → Spec.access fs p = Spec.runnable fs p := by
    intro p hp
    unfold Spec.access Spec.runnable
    cases h : fs p with
    | missing => rfl
    | dir => exact absurd h hp
    | file x => cases x <;> rfl
  have key : isExecutable (Spec.access fs) (some path) (some file) =
      .ret (Spec.execvpRuns fs dflt (some path) file) := by
    unfold Spec.execvpRuns
    rw [if_neg hne]
    by_cases hs : '/' ∈ file
    · rw [if_pos hs]; simp only [isExecutable]; rw [if_pos hs, hb _ hdir.1]
    · rw [if_neg hs, isExecutable_eq _ _ _ hs hfit]
      congr 1
      simp only [Option.getD_some]
      rw [Bool.eq_iff_iff, List.any_eq_true, List.any_eq_true]
      constructor
      · rintro ⟨e, he, h⟩
        simp only [Bool.and_eq_true, decide_eq_true_eq] at h
        refine ⟨e, he, ?_⟩
        rw [Spec.candidate, if_neg h.1, ← hb _ (hdir.2 e he)]
        exact h.2
      · rintro ⟨e, he, h⟩
        refine ⟨e, he, ?_⟩
        by_cases h0 : e = []
        · subst h0
          rw [Spec.candidate, if_pos rfl, hcwd he hs] at h
          cases h
        · rw [Spec.candidate, if_neg h0, ← hb _ (hdir.2 e he)] at h
          simp [h0, h]
  unfold execCall
  simp only [key, bind_ret]

/-- A PATH with two elements, the program in the second. -/
example : execCall true (Spec.access fun p => if p = "/bin/ls".toList then .file true else .missing)
    (some "/usr/bin:/bin".toList) .execvp (some "ls".toList) [] none =
    .ret [.endProcess, .endLibrary, .real .execvp (some "ls".toList) [] none] := by decide +kernel

example : ∀ e ∈ Spec.split "/usr/bin:/bin".toList, e.length + "ls".toList.length + 2 ≤ 4096 := by
  decide

/-- PATH unset: NULL pointer dereference, although execvp would use its default PATH. -/
theorem C34_path_unset_ub (access : Str → Bool) : isExecutable access none (some "ls".toList) = .ub := by
  rfl

/-- A long PATH element: the code logs the problem and then writes past `buf`. -/
theorem C34_path_too_long_ub (access : Str → Bool) (elem file : Str) (hc : ':' ∉ elem)
    (hs : '/' ∉ file) (hlen : 4096 < elem.length + file.length + 2) (h0 : elem ≠ []) :
    isExecutable access (some elem) (some file) = .ub := by
  have htw : elem.takeWhile (· != ':') = elem := by
    clear hlen h0
    induction elem with
    | nil => rfl
    | cons c s ih =>
      simp only [List.mem_cons, not_or] at hc
      have h1 : (c != ':') = true := by
        simp only [bne_iff_ne, ne_eq]; exact fun h => hc.1 h.symm
      simp only [List.takeWhile_cons, h1, if_true, ih hc.2]
  have hsk : skipColons elem = elem := by
    cases elem with
    | nil => rfl
    | cons c s =>
      have : c ≠ ':' := by rintro rfl; simp at hc
      simp [skipColons, this]
  unfold isExecutable
  simp only
  rw [if_neg hs, hsk]
  unfold searchLoop
  rw [if_neg h0]
  simp only [htw]
  rw [if_pos (by simpa [pathMax] using hlen)]

example : ∃ elem : Str, ':' ∉ elem ∧ 4096 < elem.length + "ls".toList.length + 2 ∧ elem ≠ [] :=
  ⟨List.replicate 5000 'x', fun h => absurd (List.eq_of_mem_replicate h) (by decide),
    by rw [List.length_replicate]; omega,
    fun h => by have := congrArg List.length h; rw [List.length_replicate] at this; cases this⟩

/-- An empty PATH element means the current directory for execvp; the code skips it, so a
program that will run gets no exit callbacks. -/
theorem C34_empty_element :
    ∃ (fs : Str → Spec.Node), Spec.execvpRuns fs [] (some ":/bin".toList) "prog".toList = true ∧
      execCall true (Spec.access fs) (some ":/bin".toList) .execvp (some "prog".toList) [] none =
        .ret [.real .execvp (some "prog".toList) [] none] :=
  ⟨fun p => if p = "prog".toList then .file true else .missing, by decide +kernel, by decide +kernel⟩

/-- A directory passes access(X_OK): the exit callbacks are delivered although exec fails and
the program goes on. -/
theorem C34_directory :
    ∃ (fs : Str → Spec.Node), Spec.runnable fs "/tmp".toList = false ∧
      execCall true (Spec.access fs) none .execve (some "/tmp".toList) [] (some []) =
        .ret [.endProcess, .endLibrary, .real .execve (some "/tmp".toList) [] (some [])] :=
  ⟨fun _ => .dir, by decide +kernel, by decide +kernel⟩

/-- The empty name: execvp fails with ENOENT, the code finds "/bin/". -/
theorem C34_empty_name :
    ∃ (fs : Str → Spec.Node), Spec.execvpRuns fs [] (some "/bin".toList) [] = false ∧
      execCall true (Spec.access fs) (some "/bin".toList) .execvp (some []) [] none =
        .ret [.endProcess, .endLibrary, .real .execvp (some []) [] none] :=
  ⟨fun p => if p = "/bin/".toList then .dir else .missing, by decide +kernel, by decide +kernel⟩

/-! ## C35 -/

/-- First waitpid result that is not an interruption. -/
def Spec.waitResult (ws : List Wait) : Option Int :=
  match ws.find? (· ≠ .eintr) with
  | none => none
  | some (.status s) => some s
  | some _ => some (-1)

theorem waitLoop_eq (ws : List Wait) : waitLoop ws = Spec.waitResult ws := by
  induction ws with
  | nil => rfl
  | cons w ws ih =>
    cases w with
    | eintr => rw [waitLoop, ih]; simp [Spec.waitResult]
    | fail => rfl
    | status s => rfl

/-- **C35.**  In the calling process, for every outcome of fork and every stream of waitpid
results: when system() returns, SIGINT, SIGQUIT and the mask are as before; with callbacks
pre-fork is delivered once, before, and post-fork once, after, with fork's result and
pre-fork's value; the return value is the child's status, or -1 if fork or wait failed;
interruptions are ignored; while the child runs SIGINT and SIGQUIT are ignored and SIGCHLD
is blocked in addition. -/
theorem C35_system {A} (ign : A) (callback shellOk : Bool) (command : Str) (data : Int)
    (fork : ForkRes) (waits : List Wait) (k : Kern A) :
    let out := system ign callback shellOk (some command) data fork waits k
    let pre := if callback then [SysEv.preFork] else []
    let post := fun pid => if callback then [SysEv.postFork pid data] else []
    let running : Kern A := ⟨ign, ign, fun s => k.mask s || s == 17⟩
    match fork with
    | .fail => out = (k, pre ++ post (-1), some (-1))
    | .parent pid =>
      match Spec.waitResult waits with
      | none => out = (running, pre ++ [.waiting running], none)
      | some st => out = (k, pre ++ [.waiting running] ++ post pid, some st) := by
  cases fork with
  | fail => cases callback <;> rfl
  | parent pid =>
    simp only [system, waitLoop_eq]
    cases Spec.waitResult waits with
    | none => rfl
    | some st => cases callback <;> rfl

/-- **C35.**  system(NULL) reports whether the shell is available and changes nothing. -/
theorem C35_system_null {A} (ign : A) (callback shellOk : Bool) (data : Int)
    (fork : ForkRes) (waits : List Wait) (k : Kern A) :
    system ign callback shellOk none data fork waits k =
      (k, [], some (if shellOk then 1 else 0)) := rfl

/-- **C35.**  The child runs `/bin/sh -c command` with the caller's signal state; with the
caller's environment for the application, without LD_PRELOAD for the client; and exits 127
without callbacks if that fails. -/
theorem C35_system_child {A} (ign : A) (callback : Bool) (command : Str) (environ : List Ptr)
    (l : List Str) (hold : Spec.Holds environ l)
    (sysconf : Int) (mmapOk : Bool) (static : List Ptr) (hst : static.length = 250)
    (hl : l.length < 2 ^ 32) (hsc : sysconf = -1 ∨ (0 ≤ sysconf ∧ sysconf < 2 ^ 62))
    (k : Kern A) (c : ChildExec A)
    (h : systemChild ign callback command environ sysconf mmapOk static k = .ret c) :
    c.file = "/bin/sh".toList ∧
    Spec.Holds c.argv ["/bin/sh".toList, "-c".toList, command] ∧ c.kern = k ∧ c.failExit = 127 ∧
    (callback = true → c.env = environ) ∧
    (callback = false → ∃ kept, Spec.Holds c.env kept ∧
      ∀ s ∈ kept, ¬ Spec.Defines "LD_PRELOAD".toList s) := by
  unfold systemChild at h
  cases callback with
  | true =>
    simp only [if_true, bind_ret] at h
    injection h with h; subst h
    exact ⟨rfl, ⟨[], rfl⟩, rfl, rfl, fun _ => rfl, fun hx => by cases hx⟩
  | false =>
    simp only [Bool.false_eq_true, if_false] at h
    cases hc : copyEnviron environ sysconf mmapOk static with
    | ub => rw [hc] at h; cases h
    | err => rw [hc] at h; cases h
    | ret e =>
      rw [hc] at h
      simp only [bind_ret] at h
      injection h with h; subst h
      refine ⟨rfl, ⟨[], rfl⟩, rfl, rfl, ?_, fun _ => ?_⟩
      · intro hx; cases hx
      · exact C32_no_preload environ l hold sysconf mmapOk static hst hl hsc e hc

/-- An interrupted wait followed by an exit status. -/
example : (system "ign" true true (some "ls".toList) 5 (.parent 42) [.eintr, .eintr, .status 256]
    ⟨"h1", "h2", fun _ => false⟩).2.2 = some 256 := by decide +kernel

/-! ## C46: system() from several threads -/

/-- Histories in which overlapping calls end in the opposite order of their start. -/
inductive Nested : List CStep → Prop where
  | nil : Nested []
  | wrap (t : Nat) {h h' : List CStep} (a : Nested h) (b : Nested h') :
      Nested (.enter t :: (h ++ .leave t :: h'))

theorem crun_append {A} (ign : A) (s : Conc A) (a b : List CStep) :
    crun ign s (a ++ b) = (crun ign s a).bind fun s => crun ign s b := by
  induction a generalizing s with
  | nil => rfl
  | cons c a ih =>
    simp only [List.cons_append, crun]
    cases cstep ign s c with
    | none => rfl
    | some s' => exact ih s'

/-- **C46** (for properly nested calls).  Then SIGINT's action and all threads' saved values
are as before.  Missing: calls that overlap otherwise, see `C46_overlap_loses_action`. -/
theorem C46_system_nested_partial {A} (ign : A) (h : List CStep) (hn : Nested h) (s s' : Conc A)
    (hr : crun ign s h = some s') : s'.cur = s.cur ∧ s'.saved = s.saved := by
  induction hn generalizing s s' with
  | nil => cases hr; exact ⟨rfl, rfl⟩
  | @wrap t h h' _ _ ih1 ih2 =>
    simp only [crun, cstep] at hr
    cases hs : s.saved t with
    | some a => rw [hs] at hr; simp at hr
    | none =>
      rw [hs] at hr
      simp only [crun_append] at hr
      cases h1 : crun ign ⟨ign, fun u => if u = t then some s.cur else s.saved u⟩ h with
      | none => rw [h1] at hr; simp at hr
      | some s1 =>
        rw [h1] at hr
        obtain ⟨c1, c2⟩ := ih1 _ _ h1
        simp only [Option.bind_some, crun, cstep, c2, if_true] at hr
        obtain ⟨d1, d2⟩ := ih2 _ _ hr
        refine ⟨d1, ?_⟩
        rw [d2]
        funext u
        by_cases hu : u = t
        · subst hu; simp [hs]
        · simp [hu]

example : Nested [.enter 1, .enter 2, .leave 2, .leave 1, .enter 3, .leave 3] :=
  .wrap 1 (.wrap 2 .nil .nil) (.wrap 3 .nil .nil)

/-- Two overlapping calls: afterwards nobody is inside system() and SIGINT is ignored for the
rest of the process, whatever its action was. -/
theorem C46_overlap_loses_action {A} (ign act : A) :
    (crun ign ⟨act, fun _ => none⟩ [.enter 1, .enter 2, .leave 1, .leave 2]).map Conc.cur =
      some ign := by
  simp [crun, cstep]

end Libmonitor.Fork
