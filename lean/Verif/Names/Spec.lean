import Verif.Names.Model

/-!
# Names: what is claimed
-/

namespace Libmonitor.Names

/-- Thread `t` is inside one of the three run-once functions that fill in pointers. -/
def initialising (s : St) (t : Nat) : Bool :=
  (s.th t).any (fun x => match x with
    | .lib .normalInit _ | .lib .signalInit _ | .lib .nameInit _ => true
    | _ => false)

/-- The steps by which a thread leaves its course: a signal handler starts in it, it is unwound, it
is cancelled, or a lookup goes through the overridden `dlopen`. -/
def disturbs : Lbl → Option Nat
  | .interrupt t | .signal t | .shoot t | .unwind t _ | .die t _ | .fallback t => some t
  | _ => none

/-- Nothing disturbs a thread while it is inside a run-once initialisation. -/
def Quiet (s : St) (l : Lbl) : Prop := ∀ t, disturbs l = some t → initialising s t = false

instance (s : St) (l : Lbl) : Decidable (Quiet s l) := by
  unfold Quiet
  cases h : disturbs l with
  | none => exact .isTrue (by simp)
  | some t => exact decidable_of_iff (initialising s t = false) (by simp)

end Libmonitor.Names
