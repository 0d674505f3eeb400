import Verif.Names.Lemmas

/-!
# C54: no real function is called before it has been looked up
-/

namespace Libmonitor.Names

open Fn Ins Ptr

/-- Running a schedule all of whose steps are allowed. -/
def runA (A : St → Lbl → Prop) [∀ s l, Decidable (A s l)] : St → List Lbl → Option St
  | s, [] => some s
  | s, l :: ls => if A s l then (next s l).bind (fun s' => runA A s' ls) else none

theorem reach_of_runA {A : St → Lbl → Prop} [∀ s l, Decidable (A s l)] : ∀ {ls : List Lbl}
    {s s' : St}, ReachA A s → runA A s ls = some s' → ReachA A s' := by
  intro ls
  induction ls with
  | nil => intro s s' h e; cases e; exact h
  | cons l ls ih =>
    intro s s' h e
    simp only [runA] at e
    split at e
    · rename_i ha
      cases hn : next s l with
      | none => rw [hn] at e; cases e
      | some s1 => rw [hn] at e; exact ih (.step h ha hn) e
    · cases e

theorem exists_of_runA {A : St → Lbl → Prop} [∀ s l, Decidable (A s l)] {ls : List Lbl}
    {p : St → Bool} (h : ((runA A {} ls).map p).getD false = true) :
    ∃ s, ReachA A s ∧ p s = true := by
  cases hr : runA A {} ls with
  | none => rw [hr] at h; exact absurd h (by simp)
  | some s =>
    rw [hr] at h
    exact ⟨s, reach_of_runA .init hr, by simpa using h⟩

/-- `n` steps of thread `t`, conditionals not taken. -/
def go (t n : Nat) : List Lbl := List.replicate n (.go t false)

/-- `pthread_create` as the very first call, up to the new thread's first step that calls through a
pointer. -/
def firstCreate : List Lbl :=
  .call 0 createW :: go 0 103 ++ [.go 0 true] ++ go 0 3 ++ [.ret 0] ++ go 0 8 ++ [.ret 0] ++
    go 0 5 ++ [.go 0 true] ++ go 1 1

/-- C54, for executions in which nothing disturbs a run-once initialisation: whatever is called
first, in whatever order and nesting, by however many threads, with signals arriving elsewhere, long
jumps, thread exits and forks, a thread that is about to call through one of the pointers finds it
filled in. -/
theorem C54_resolved_before_call_partial {s : St} {t : Nat} {f : Fn} {p : Ptr} {l : List Ins}
    {k : List Fr} (h : ReachA Quiet s) (ht : s.th t = .lib f (.use p :: l) :: k) :
    s.res p = true := by
  have hv := (inv_reach h).valid t
  rw [ht] at hv
  obtain ⟨⟨F, hF, hc⟩, _⟩ := hv
  simp only [List.nil_append, chk, Bool.and_eq_true] at hc
  exact hF (.ptr p) (by simpa using hc.1)

/-- C54: in the same executions no null pointer has been called. -/
theorem C54_no_null_call_partial {s : St} (h : ReachA Quiet s) : s.bad = false :=
  (inv_reach h).good

/-- The new thread of a `pthread_create` that was the first call into the library is about to ask
for its own identity, while its creator is still inside the override. -/
example : ∃ s, ReachA Quiet s ∧ s.made = 2 ∧
    s.th 1 = [.lib beginThread [use tSelf, use tSet, dbg, opt threadRun]] ∧
    s.th 0 = [.lib createMon [opt attrSet, opt attrDestroy, dbg, cb],
      .lib createW [opt createMon, use tCreate, spawn foreignCode], .out] := by
  obtain ⟨s, hr, hp⟩ := exists_of_runA (A := Quiet) (ls := firstCreate)
    (p := fun s => decide (s.made = 2 ∧
      s.th 1 = [.lib beginThread [use tSelf, use tSet, dbg, opt threadRun]] ∧
      s.th 0 = [.lib createMon [opt attrSet, opt attrDestroy, dbg, cb],
        .lib createW [opt createMon, use tCreate, spawn foreignCode], .out])) (by decide +kernel)
  exact ⟨s, hr, of_decide_eq_true hp⟩

/-- C54: threads only come into being after the initialisations.  Once a thread has been made no
thread is ever inside a run-once initialisation, so the unlocked run-once marks are never raced
for. -/
theorem C54_no_race_partial {s : St} (h : ReachA Quiet s) (hm : 1 < s.made) (t : Nat) :
    initialising s t = false := by
  have hi := inv_reach h
  refine List.any_eq_false.2 (fun x hx => ?_)
  cases x with
  | out => simp
  | lib f l =>
    intro hf
    have hc : crit f = true := by cases f <;> first | exact hf | rfl
    have := hi.one t f l hx hc
    omega

/-- Such a state, with two threads inside the library. -/
example : ∃ s, ReachA Quiet s ∧ 1 < s.made ∧ s.th 0 ≠ [.out] ∧ s.th 1 ≠ [] := by
  obtain ⟨s, hr, hp⟩ := exists_of_runA (A := Quiet) (ls := firstCreate)
    (p := fun s => decide (1 < s.made ∧ s.th 0 ≠ [.out] ∧ s.th 1 ≠ [])) (by decide +kernel)
  exact ⟨s, hr, of_decide_eq_true hp⟩

/-- C54 is false without the restriction.  A library calls `sigaction` in its constructor.  While
libmonitor's own constructor is at the beginning of `monitor_normal_init` the signal arrives; the
application's handler calls `exit`, where `monitor_normal_init` returns at once because it is marked
as run; after the client's callbacks the process is to end, and `real_exit` is still null. -/
theorem C54_signal_in_init : ∃ s, Reach s ∧ s.made = 1 ∧ s.bad = false ∧ s.res mExit = false ∧
    ∃ k, s.th 0 = .lib exitW [use mExit] :: k := by
  obtain ⟨s, hr, hp⟩ := exists_of_runA (A := fun _ _ => True)
    (ls := .call 0 actionW :: go 0 12 ++ [.call 0 constructor] ++ go 0 5 ++ [.signal 0] ++ go 0 1 ++
      [.go 0 true, .go 0 false, .call 0 exitW] ++ go 0 6 ++ [.go 0 true] ++ go 0 2 ++ [.ret 0] ++
      go 0 6 ++ [.ret 0] ++ go 0 4)
    (p := fun s => decide (s.made = 1 ∧ s.bad = false ∧ s.res mExit = false ∧
      s.th 0 = .lib exitW [use mExit] :: (s.th 0).tail)) (by decide +kernel)
  obtain ⟨h1, h2, h3, h4⟩ := of_decide_eq_true hp
  exact ⟨s, hr, h1, h2, h3, _, h4⟩

/-- C54 is false without the restriction, also without any signal: the first name looked up is not
found by `dlsym(RTLD_NEXT)`, the search opens the loaded objects with the overridden `dlopen`, and
the client's `monitor_pre_dlopen` calls `monitor_real_sigprocmask`. -/
theorem C54_dlopen_in_init : ∃ s, Reach s ∧ s.made = 1 ∧ s.bad = true ∧
    ∃ k, s.th 0 = .lib realMask [] :: .out :: .lib dlopenW [use dOpen, cb, dbg] :: k := by
  obtain ⟨s, hr, hp⟩ := exists_of_runA (A := fun _ _ => True)
    (ls := .call 0 constructor :: go 0 8 ++ [.fallback 0] ++ go 0 8 ++ [.call 0 realMask] ++ go 0 2)
    (p := fun s => decide (s.made = 1 ∧ s.bad = true ∧
      s.th 0 = .lib realMask [] :: .out :: .lib dlopenW [use dOpen, cb, dbg] :: (s.th 0).drop 3))
    (by decide +kernel)
  obtain ⟨h1, h2, h3⟩ := of_decide_eq_true hp
  exact ⟨s, hr, h1, h2, _, h3⟩

end Libmonitor.Names
