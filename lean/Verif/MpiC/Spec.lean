import Verif.MpiC.Model
/-!
# Vocabulary of the statements about the MPI wrappers in several threads
-/

namespace Libmonitor.MpiC

/-- How far an open call has got: entered; first callback called; real function called; real
function returned; second callback called. -/
inductive Phase where
  | entered | before | inside | returned | after
  deriving DecidableEq, Repr

/-- What one thread may do about the calls of kind `k` it has open, innermost first.  Callbacks
belong to the outermost call and to no other, one before the real function and one after. -/
def grammar (k : Kind) (ps : List Phase) : Ev → Option (List Phase)
  | .enter k' _ => some (if k' = k then .entered :: ps else ps)
  | .first k' => if k' = k then (match ps with | [.entered] => some [.before] | _ => none) else some ps
  | .real k' _ => if k' = k then
      (match ps with
       | [.before] => some [.inside]
       | .entered :: p :: ps => some (.inside :: p :: ps)
       | _ => none) else some ps
  | .realRet k' _ => if k' = k then
      (match ps with | .inside :: ps => some (.returned :: ps) | _ => none) else some ps
  | .second k' => if k' = k then (match ps with | [.returned] => some [.after] | _ => none) else some ps
  | .leave k' _ => if k' = k then
      (match ps with
       | [.after] => some []
       | .returned :: p :: ps => some (p :: ps)
       | _ => none) else some ps
  | _ => some ps

/-- The calls of kind `k` that thread `t` has open after a history, `none` if the history does
not follow `grammar`. -/
def phases (k : Kind) (t : Tid) : List (Tid × Ev) → Option (List Phase)
  | [] => some []
  | (u, e) :: tr => if u = t then (phases k t tr).bind fun ps => grammar k ps e else phases k t tr

/-- Calls of kind `k` open in thread `t`. -/
def opened (k : Kind) (t : Tid) (tr : List (Tid × Ev)) : Nat := ((phases k t tr).getD []).length

/-- The pairs published, latest first. -/
def published (tr : List (Tid × Ev)) : List (Int × Int) :=
  tr.filterMap fun x => match x.2 with | .publish size rank => some (size, rank) | _ => none

/-- The pair was given by the client, or it is the result of a query of the same thread and some
initialisation has begun. -/
def Source (tr : List (Tid × Ev)) (t : Tid) (size rank : Int) : Prop :=
  (t, .clientSet size rank) ∈ tr ∨
    (∃ ok, (t, .known ok size rank) ∈ tr) ∧ ∃ u w, (u, .enter .init w) ∈ tr

/-- The size and rank that monitor_mpi_comm_size and monitor_mpi_comm_rank report. -/
def S.report (s : S) : Int × Int := (s.g.size, s.g.rank)

/-- `s'` comes after `s` in an execution whose steps satisfy `A`. -/
inductive Later (A : S → Lbl → Prop) (s : S) : S → Prop where
  | refl : Later A s s
  | step {s' s'' l} : Later A s s' → A s' l → next s' l = some s'' → Later A s s''

/-- The step enters an init (finalize) wrapper. -/
def Lbl.enters (l : Lbl) : Option Kind :=
  match l.i with
  | .call (.init _) => some .init
  | .call (.fini _) => some .fini
  | _ => none

/-- The call that the frame belongs to is changing the counter of its kind. -/
def Frame.counting (k : Kind) : Frame → Bool
  | .load k' .. | .store k' .. | .ret k' .. => k' = k
  | .cmp .. | .setMax .. => k = .init
  | _ => false

/-- The frame is (the rest of) a call of an init (finalize) wrapper. -/
def Frame.isCall (k : Kind) : Frame → Bool
  | .load k' .. | .store k' .. | .ret k' .. | .first k' .. | .real k' .. | .rret k' .. |
    .second k' .. => k' = k
  | .cmp .. | .setMax .. => k = .init
  | _ => false

/-- Initialisation (finalisation) is used by one thread at a time: the call is made while no
other thread is inside such a call, not by a handler that interrupted the update of the counter,
and no call is left by cancellation or longjmp.  (The MPI standard requires the first; the
wrappers may be nested in any way.) -/
def Serial (s : S) (l : Lbl) : Prop :=
  (∀ k ∈ l.enters, (∀ x ∈ s.g.tr, x.1 ≠ l.t → opened k x.1 s.g.tr = 0) ∧
    ∀ f ∈ s.th l.t, f.counting k = false) ∧
  (l.i = .unwind → ∀ f ∈ s.th l.t, f.isCall .init = false ∧ f.isCall .fini = false)

instance (s : S) (l : Lbl) : Decidable (Serial s l) := by
  unfold Serial; infer_instance

/-- The frame is storing a size and rank. -/
def Frame.storing : Frame → Bool
  | .ss0 .. | .ss1 .. | .ss2 .. | .ss3 => true
  | _ => false

/-- The step begins a call of monitor_set_size_rank. -/
def beginsSet (s : S) (l : Lbl) : Bool :=
  match l.i, s.th l.t with
  | .call (.setSizeRank ..), _ => true
  | .go .., .sm2 .. :: _ => true
  | _, _ => false

/-- Calls of monitor_set_size_rank do not overlap: no other is in progress, in any thread, when
one begins, and none is left by cancellation or longjmp. -/
def OneSet (s : S) (l : Lbl) : Prop :=
  (beginsSet s l = true → ∀ x ∈ s.g.tr, ∀ f ∈ s.th x.1, f.storing = false) ∧
  (l.i = .unwind → ∀ f ∈ s.th l.t, f.storing = false)

instance (s : S) (l : Lbl) : Decidable (OneSet s l) := by
  unfold OneSet; infer_instance

end Libmonitor.MpiC
