import Verif.Args.Model

/-! # Vocabulary of the claim on arguments and status (C60) -/

namespace Libmonitor.Args

abbrev Hist := List (Tid × Ev)

/-- Every event of a history satisfies `P`, given the history before it. -/
def Always (P : Tid → Ev → Hist → Prop) : Hist → Prop
  | [] => True
  | x :: old => P x.1 x.2 old ∧ Always P old

/-- The count as the client left it: `n` unless changed. -/
def count (n : Nat) : Hist → Nat
  | [] => n
  | (_, .clientSet k) :: _ => k
  | _ :: old => count n old

/-- The client has not changed the count. -/
def Unchanged (tr : Hist) : Prop := ∀ u k, (u, Ev.clientSet k) ∉ tr

/-- A count that a callback may be given in some execution: none yet, the real one, or one the
client has stored. -/
def someCount (a : Arg) (n : Nat) (old : Hist) : Prop :=
  n = 0 ∨ n = a.argc ∨ ∃ u, (u, Ev.clientSet n) ∈ old

/-- What holds of the events in all executions of a process started with arguments `a`: the
application's main runs at most once, in the main thread, with exactly these arguments; the
real exit function gets the status of a call (or of the return of main) by its thread; the
other values are not invented. -/
def Sound (a : Arg) : Tid → Ev → Hist → Prop
  | t, .main b, old => b = a ∧ t = 0 ∧ ∀ u c, (u, Ev.main c) ∉ old
  | t, .quit st, old => (t, Ev.exitCall st) ∈ old
  | _, .initProcess n p, old => someCount a n old ∧ (p = 0 ∨ p = a.argv)
  | _, .initMpi n p, old => someCount a n old ∧ (p = 0 ∨ p = a.argv)
  | t, .wrapMain b, old => t = 0 ∧ b.argv = a.argv ∧ b.envp = a.envp ∧ someCount a b.argc old
  | _, _, _ => True

/-- What callbacks should be given: the arguments of main; the count as the client left it. -/
def Exact (a : Arg) : Tid → Ev → Hist → Prop
  | _, .initProcess n p, old => n = count a.argc old ∧ p = a.argv
  | _, .initMpi n p, old => (Unchanged old → n = a.argc) ∧ p = a.argv
  | _, .wrapMain b, old => b = ⟨count a.argc old, a.argv, a.envp⟩
  | _, _, _ => True

def Ev.isInit : Ev → Bool
  | .initProcess _ _ => true
  | _ => false

/-- Nobody enters the library (by initialize, pthread_create, Fortran mpi_init or fork) before
monitor_main has called init-process. -/
def FromMain (s : S) (l : Lbl) : Prop :=
  match l.i with
  | .call .begin | .call .fortranInit | .fork => s.g.tr.any (fun x => x.2.isInit) = true
  | _ => True

instance (s : S) (l : Lbl) : Decidable (FromMain s l) := by
  unfold FromMain; split <;> infer_instance

end Libmonitor.Args
