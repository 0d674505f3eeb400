import Verif.EnvC.Model
import Verif.Fork.Spec

/-!
# What is claimed about the environment of unmonitored programs (C82)

Histories are latest first.
-/

namespace Libmonitor.EnvC

open Fork (Str)

/-- The string mentions LD_PRELOAD. -/
def Mentions (x : Str) : Prop := Fork.Spec.Occurs "LD_PRELOAD".toList x

/-- `l` is `env` without the strings that mention LD_PRELOAD, in the same order. -/
inductive Kept : List Str → List Str → Prop where
  | nil : Kept [] []
  | drop {x env l} : Mentions x → Kept env l → Kept (x :: env) l
  | keep {x env l} : ¬ Mentions x → Kept env l → Kept (x :: env) (x :: l)

/-- Since call `c` began no other call has stored into the static array. -/
def Quiet (c : Call) : List Ev → Prop
  | [] => True
  | .enter d _ :: r => d = c ∨ Quiet c r
  | .store d _ _ :: r => d = c ∧ Quiet c r
  | _ :: r => Quiet c r

end Libmonitor.EnvC
