import Verif.Proc.SpecInfo
/-!
# Vocabulary of the statement about threads that come through the exit procedure again
-/

namespace Libmonitor.Proc

/-- `t` made this process (or the line of processes up to it) by a fork, in a thread that the library
did not know, after somebody had begun to deliver the exit callbacks in the parent. -/
def inheritsExit (t : Tid) (tr : Hist) : Prop :=
  ∃ a b c, tr = a ++ (t, .forked b) :: c ∧ ¬ registered c t ∧ ∃ w how, (w, .beginExit how) ∈ c

/-- Who is let through as the one that already delivers the callbacks. -/
def repeatSpec (old : Hist) (t : Tid) (e : Ev) : Prop :=
  ∀ how, e = .resume how .again →
    (∃ how', (t, .beginExit how') ∈ old) ∨ inheritsExit t old

end Libmonitor.Proc
