import Verif.Wrap.Model

/-! # Vocabulary of the claim on MPI wrappers (C61) -/

namespace Libmonitor.Wrap

abbrev Hist := List (Tid × Ev)

/-- Every event of a history satisfies `P`, given the history before it. -/
def Always (P : Tid → Ev → Hist → Prop) : Hist → Prop
  | [] => True
  | x :: old => P x.1 x.2 old ∧ Always P old

/-- Underscores of a Fortran name. -/
def Lang.underscores : Lang → Option Nat
  | .c => none
  | .f0 => some 0
  | .f1 => some 1
  | .f2 => some 2

/-- The real function that a wrapper stands for: the one of its own name. -/
def W.own (w : W) : Sym :=
  match w.lang.underscores with
  | none => .C w.pmpi w.fn
  | some n => .F w.pmpi w.fn n

/-- The comm_size of the same interface. -/
def W.ownSize (w : W) : Sym :=
  match w.lang.underscores with
  | none => .CSize w.pmpi
  | some n => .FSize w.pmpi n

/-- Found under this name. -/
def Found (sym : Sym) (addr : Nat) (old : Hist) : Prop :=
  addr ≠ 0 ∧ ∃ u, (u, Ev.lookup sym addr) ∈ old

/-- A call is passed through: each call of a wrapper calls the real function of its own name at
most once, in the same thread and with the same arguments; it returns what this call returned.
comm_rank also calls the comm_size of the same interface, before, with its own communicator; the
callback after initialisation gets the pointers of the caller, after the real function. -/
def Through : Tid → Ev → Hist → Prop
  | _, .enter id _ _, old => ∀ u w args, (u, Ev.enter id w args) ∉ old
  | t, .size id addr comm, old =>
    (∃ w args, (t, Ev.enter id w args) ∈ old ∧ w.fn = .commRank ∧ args.head? = some comm ∧
      Found w.ownSize addr old) ∧ ∀ u p args, (u, Ev.real id p args) ∉ old
  | t, .real id addr args, old =>
    (∃ w, (t, Ev.enter id w args) ∈ old ∧ Found w.own addr old ∧
      (w.fn = .commRank → ∃ p comm, (t, Ev.size id p comm) ∈ old)) ∧
      ∀ u p args, (u, Ev.real id p args) ∉ old
  | t, .realRet id _, old =>
    (∃ p args, (t, Ev.real id p args) ∈ old) ∧ ∀ u v, (u, Ev.realRet id v) ∉ old
  | t, .initMpi id argc argv, old =>
    (∃ w rest, (t, Ev.enter id w (argc :: argv :: rest)) ∈ old ∧ w.lang = .c ∧
      (w.fn = .init ∨ w.fn = .initThread)) ∧
      (∃ v, (t, Ev.realRet id v) ∈ old) ∧ ∀ u v, (u, Ev.ret id v) ∉ old
  | t, .ret id v, old => (t, Ev.realRet id v) ∈ old ∧ ∀ u v, (u, Ev.ret id v) ∉ old
  | _, .lookup _ _, _ => True

end Libmonitor.Wrap
