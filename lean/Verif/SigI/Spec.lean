import Verif.SigI.Model

/-!
# What is claimed about the first use of the signal table (C84)

Histories are latest first.
-/

namespace Libmonitor.SigI

open Sig (Cfg)

/-- A signal for which handlers can be installed. -/
def Usable (f : Cfg) (g : Nat) : Prop := 1 ≤ g ∧ g < f.nsig ∧ g ∉ [9, 19] ∧ f.kernelOk g = true

/-- A signal number that is not SIGKILL, SIGSTOP, SIGTSTP, SIGTTIN or SIGTTOU. -/
def Valid (f : Cfg) (g : Nat) : Prop := 1 ≤ g ∧ g < f.nsig ∧ g ∉ [9, 19, 20, 21, 22]

/-- The handler that the client has set last. -/
def lastClient (g : Nat) : List Ev → Option Hand
  | [] => none
  | .client _ g' h :: r => if g = g' then some h else lastClient g r
  | _ :: r => lastClient g r

/-- The action that the application has set last; the one before libmonitor if it has set none. -/
def lastAppl (orig : Nat → Hand) (g : Nat) : List Ev → Hand
  | [] => orig g
  | .appl _ g' h :: r => if g = g' then h else lastAppl orig g r
  | _ :: r => lastAppl orig g r

/-- Every delivered signal finds the client's handler and the application's action. -/
def Right (orig : Nat → Hand) : List Ev → Prop
  | [] => True
  | .deliver _ g h a :: r => h = lastClient g r ∧ a = .app (lastAppl orig g r) ∧ Right orig r
  | _ :: r => Right orig r

/-- One thread, no signal. -/
def Calm : Lbl → Prop
  | .go t | .call t _ | .unwind t _ | .fork t | .setenv t _ => t = 0
  | .signal _ _ | .interrupt _ => False

/-- Until monitor_signal_init has finished for the first time there is one thread, and no signal; afterwards
anything. -/
def InitFirst (s : S) (l : Lbl) : Prop := (∀ c, Ev.fin c ∉ s.tr) → Calm l

end Libmonitor.SigI
