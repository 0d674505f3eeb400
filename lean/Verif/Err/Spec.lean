import Verif.Err.Model
/-!
# What an application may expect of errno
-/

namespace Libmonitor.Err.Spec

open Libmonitor.Err

/-- The latest call of one of the functions `real` returned `r` and left `e` in errno. -/
def Last (real : Fn → Bool) (l : List Entry) (r : Int) (e : Nat) : Prop :=
  ∃ post c pre, l = post ++ c :: pre ∧ real c.fn = true ∧ (∀ d ∈ post, real d.fn = false) ∧
    c.ret = r ∧ c.after = e

/-- The calls of the functions `f` left errno alone. -/
def Kept (f : Fn → Bool) (l : List Entry) : Prop := ∀ c ∈ l, f c.fn = true → c.before = c.after

/-- Messages. -/
def message (f : Fn) : Bool := f == .debug || f == .warn

end Libmonitor.Err.Spec
