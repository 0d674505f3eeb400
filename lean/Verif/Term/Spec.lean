import Verif.Term.Model
/-!
# Vocabulary for C66
-/

namespace Libmonitor.Term

/-- Between the installation of the default action for `sg` and raise: in monitor_signal_handler, or in
monitor_real_abort. -/
def Frame.ending (sg : Nat) : Frame → Bool
  | .e2 r | .e3 r => r == sg
  | .ab2 | .ab3 => sg == 6
  | _ => false

/-- Executions in which the library does not install its handler for a signal (for a call of sigaction)
while a thread is about to end the process with that signal. -/
def Calm (s : S) : Lbl → Prop
  | .go t _ => ∀ sg rest, s.th t = .sa sg :: rest → ∀ u, ∀ f ∈ s.th u, f.ending sg = false
  | _ => True

/-- A call of monitor_real_abort. -/
def Frame.aborting : Frame → Bool
  | .ab1 | .ab2 | .ab3 | .ab4 => true
  | _ => false

end Libmonitor.Term
