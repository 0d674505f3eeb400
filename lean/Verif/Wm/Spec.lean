import Verif.Wm.Model
/-!
# Vocabulary for C67 and C68
-/

namespace Libmonitor.Wm

/-- The latest store to `a` in a history (latest first), or the initial value. -/
def lastStore (m : Loc → Val) (a : Loc) : List Ev → Val × Nat
  | [] => (m a, 0)
  | .store _ c v n :: tr => if c = a then (v, n) else lastStore m a tr
  | _ :: tr => lastStore m a tr

/-- Inside the lock, up to the store of spinlock_unlock. -/
def holds (s : S) (t : Tid) : Prop := s.pc t = .inside ∨ s.pc t = .rel

/-- The threads that have the lock according to a history (latest first). -/
def open' : List Ev → List Tid
  | [] => []
  | .acq t :: tr => t :: open' tr
  | .rel t :: tr => (open' tr).erase t
  | _ :: tr => open' tr

/-- Executions in which the locations in `W` are stored to by `t` only. -/
def Writer (t : Tid) (W : Loc → Prop) (_ : S) : Lbl → Prop
  | .store u a _ => W a → u = t
  | _ => True

end Libmonitor.Wm
