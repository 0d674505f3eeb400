import Verif.Start.Model

/-! # Vocabulary of the claim on program start (C73) -/

namespace Libmonitor.Start

abbrev Hist := List (Tid × Ev)

/-- Every event of a history satisfies `P`, given the history before it. -/
def Always (P : Tid → Ev → Hist → Prop) : Hist → Prop
  | [] => True
  | x :: old => P x.1 x.2 old ∧ Always P old

/-- How often thread `t` did such an event. -/
def times (p : Ev → Bool) (t : Tid) (tr : Hist) : Nat := tr.countP fun x => x.1 == t && p x.2

def isStart : Ev → Bool | .start _ => true | _ => false
def isInit : Ev → Bool | .startInit => true | _ => false
def isReal : Ev → Bool | .realStart _ => true | _ => false
def isLibcMain : Ev → Bool | .libcMain _ => true | _ => false
def isMain : Ev → Bool | .main _ _ => true | _ => false

/-- The function main of the program that is started. -/
inductive Given : Par → Addr → Prop where
  | x86 {m a b c d e f} : Given (.x86 m a b c d e f) m
  | ppc {a b c d e p f m w0 ws} : Given (.ppc a b c d e p f (w0 :: m :: ws)) m

/-- What libc's start function should be given instead (first: what was given), apart from the words that `stinfo`
points at. -/
inductive PassedOn : Par → Par → Prop where
  | x86 {m a b c d e f} : PassedOn (.x86 m a b c d e f) (.x86 MONITOR_MAIN a b c d e f)
  | ppc {a b c d e p f w w'} : PassedOn (.ppc a b c d e p f w) (.ppc a b c d e NEW_STINFO f w')

/-- The same with these words: all four, with monitor_main for main. -/
inductive Exactly : Par → Par → Prop where
  | x86 {m a b c d e f} : Exactly (.x86 m a b c d e f) (.x86 MONITOR_MAIN a b c d e f)
  | ppc {a b c d e p f w0 m w2 w3 ws} :
      Exactly (.ppc a b c d e p f (w0 :: m :: w2 :: w3 :: ws))
        (.ppc a b c d e NEW_STINFO f [w0, MONITOR_MAIN, w2, w3])

/-- The function main of some program that was started. -/
def SomeMain (b : Build) (a : Addr) (tr : Hist) : Prop :=
  if b = .static then a = REAL_MAIN else ∃ u p, (u, Ev.start p) ∈ tr ∧ Given p a

/-- What holds of the events in all executions.  Libc's start function gets what the thread was given, once for
each call and after monitor_start_main_init.  Main is one that was given, and gets what libc passed, once for each
call, after monitor_start_main_init.  On x86 and in the static case libc calls monitor_main and nothing else; in
the static case once, in the initial thread.  monitor_get_addr_main gives NULL or a main, after
monitor_start_main_init a main. -/
def Sound (b : Build) : Tid → Ev → Hist → Prop
  | t, .startInit, old => (b ≠ .static → times isInit t old < times isStart t old) ∧
      (b = .static → t = 0 ∧ times isInit t old = 0)
  | t, .realStart r, old => (∃ p, (t, Ev.start p) ∈ old ∧ PassedOn p r) ∧
      times isReal t old < times isInit t old
  | t, .main a args, old => SomeMain b a old ∧ (t, Ev.libcMain args) ∈ old ∧
      times isMain t old < times isLibcMain t old ∧ (t, Ev.startInit) ∈ old
  | t, .libcMain _, old =>
      (b ≠ .static → times isLibcMain t old < times isReal t old) ∧
      (b = .static → t = 0 ∧ times isLibcMain t old = 0)
  | _, .bypass _ _, _ => b = .ppc
  | _, .query a, old => (a = 0 ∨ SomeMain b a old) ∧ ((∃ u, (u, Ev.startInit) ∈ old) → SomeMain b a old)
  | _, _, _ => True

/-- The one program that was started. -/
def TheMain (b : Build) (a : Addr) (tr : Hist) : Prop :=
  if b = .static then a = REAL_MAIN else (∃ u p, (u, Ev.start p) ∈ tr) ∧ ∀ u p, (u, Ev.start p) ∈ tr → Given p a

/-- If one program is started: what libc is given is exact, monitor_main is never bypassed; main and what
monitor_get_addr_main gives are the one that was given. -/
def Exact (b : Build) : Tid → Ev → Hist → Prop
  | _, .realStart r, old => (∀ u q, (u, Ev.realStart q) ∉ old) ∧ ∀ u p, (u, Ev.start p) ∈ old → Exactly p r
  | _, .main a _, old => TheMain b a old ∧ ∀ u c l, (u, Ev.main c l) ∉ old
  | _, .bypass _ _, _ => False
  | _, .query a, old => (a = 0 ∨ TheMain b a old) ∧ ((∃ u, (u, Ev.startInit) ∈ old) → TheMain b a old)
  | _, _, _ => True

/-- The words that `stinfo` points at are all there. -/
def Par.whole : Par → Bool
  | .x86 .. => true
  | .ppc _ _ _ _ _ _ _ w => decide (4 ≤ w.length)

/-- `stinfo` points at four words or more. -/
def Whole (_ : S) (l : Lbl) : Prop :=
  match l.i with
  | .start p => p.whole = true
  | _ => True

/-- Also, one program is started. -/
def Once (s : S) (l : Lbl) : Prop :=
  match l.i with
  | .start p => p.whole = true ∧ s.g.tr.all (fun x => !isStart x.2) = true
  | _ => True

instance (s : S) (l : Lbl) : Decidable (Once s l) := by
  unfold Once; split <;> infer_instance

instance (s : S) (l : Lbl) : Decidable (Whole s l) := by
  unfold Whole; split <;> infer_instance

end Libmonitor.Start
