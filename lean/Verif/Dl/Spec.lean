import Verif.Dl.Model

/-!
# Lookup and callbacks, specified directly
-/

namespace Libmonitor.Dl.Spec

/-- `d` is the definition the dynamic linker gives for "the next definition after libmonitor":
the first object behind libmonitor in the global scope that defines the symbol. -/
def IsNext (w : World) (s : Sym) (d : Def) : Prop :=
  ∃ before mid rest, w.scope = before ++ w.self :: mid ++ d.owner :: rest ∧ w.self ∉ before ∧
    (∀ o ∈ mid, (w.obj o).defs s = none) ∧ (w.obj d.owner).defs s = some d.addr

/-- No object behind libmonitor in the global scope defines the symbol. -/
def NoNext (w : World) (s : Sym) : Prop := ∀ o ∈ after w.self w.scope, (w.obj o).defs s = none

/-- Loaded object `o` offers definition `d` (itself or through its dependencies). -/
def Offers (w : World) (s : Sym) (o : ObjId) (d : Def) : Prop :=
  (w.obj o).opens = true ∧ d.addr ≠ 0 ∧
  ∃ mid rest, (w.obj o).search = mid ++ d.owner :: rest ∧ (∀ x ∈ mid, (w.obj x).defs s = none) ∧
    (w.obj d.owner).defs s = some d.addr

/-- `d` comes from the first library loaded after libmonitor that offers the symbol. -/
def IsLater (w : World) (s : Sym) (d : Def) : Prop :=
  ∃ before mid o rest, w.loaded = before ++ w.self :: mid ++ o :: rest ∧ w.self ∉ before ∧
    (∀ x ∈ mid, ∀ d', ¬ Offers w s x d') ∧ Offers w s o d

/-- Nothing loaded after libmonitor offers the symbol. -/
def NoLater (w : World) (s : Sym) : Prop :=
  ∀ o ∈ after w.self w.loaded, ∀ d, ¬ Offers w s o d

/-- Sequences of events in which every call is properly bracketed: the real function sits
between one callback before and one callback after it, with the same arguments and its own result,
and the caller gets that result.  Nested calls may appear inside the callbacks and inside
the real function.  Calls left without returning (`left`) are a beginning of such a
sequence. -/
inductive Bracketed : List CEv → Prop
  | nil : Bracketed []
  | append {a b} : Bracketed a → Bracketed b → Bracketed (a ++ b)
  | open (p f r) {a b c} : Bracketed a → Bracketed b → Bracketed c →
    Bracketed (.preOpen p f :: a ++ .open p f :: b ++ .openRet p f r :: .postOpen p f r :: c ++
      [.gotOpen p f r])
  | close (h r) {a b c} : Bracketed a → Bracketed b → Bracketed c →
    Bracketed (.preClose h :: a ++ .close h :: b ++ .closeRet h r :: .postClose h r :: c ++
      [.gotClose h r])
  | realOpen (p f r) {b} : Bracketed b →
    Bracketed (.open p f :: b ++ [.openRet p f r, .gotOpen p f r])
  | realClose (h r) {b} : Bracketed b →
    Bracketed (.close h :: b ++ [.closeRet h r, .gotClose h r])
  | left {a b} : Bracketed (a ++ b) → Bracketed (a ++ [.left])

/-- No call is left without returning. -/
def AllReturn (l : List CEv) : Prop := CEv.left ∉ l

/-- A beginning of a properly bracketed sequence: the calls not finished yet may still
return. -/
def Opening (l : List CEv) : Prop := ∃ r, AllReturn r ∧ Bracketed (l ++ r)

end Libmonitor.Dl.Spec
