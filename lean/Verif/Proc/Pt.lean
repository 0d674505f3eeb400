import Verif.Proc.Model
/-!
# Threads compared by their pthread_t (pthread.c:553-555, 584, 780-789)

In `Proc.Model` a thread is named by an identifier that is never used again, and the library's
comparisons of `tn_self` with pthread_self() are comparisons of identifiers.  Here each thread has a
pthread_t, and the system may give that of a thread that is gone to a new one.
-/

namespace Libmonitor.Proc

/-- PTHREAD_EQUAL(self, tn->tn_self), pthread.c:93-97, in thread `t`.  A tn_self that was never set
is no thread's. -/
def ptEq (pt : Tid → Nat) (o : Option Tid) (t : Tid) : Bool :=
  match o with
  | none => false
  | some u => decide (pt u = pt t)

/-- One step of the top frame, as `fstep`, with the comparisons by pthread_t. -/
def fstepP (pt : Tid → Nat) (g : G) (t : Tid) (ok : Bool) (v : Nat) : Frame → Option Res
  -- pthread.c:555-560
  | .sd3 =>
    if ptEq pt g.main.self t then
      cont { g with handlerOn := true } [.sdScan none g.list 0 0]
    else
      let g := g.upd .main (fun m => { m with appl := true, finiS := false, finiD := false })
      cont { g with handlerOn := true, list := .main :: g.list }
        [.sdScan none (.main :: g.list) 0 0]
  -- pthread.c:584-600
  | .sdScan my (n :: todo) unf unst =>
    if ptEq pt (g.nodes n).self t then cont g [.sdScan (some n) todo unf unst]
    else if (g.nodes n).appl then
      if (g.nodes n).finiS then cont g [.sdScan2 my n todo unf unst]
      else cont g [.sdKill my n todo unf unst]
    else cont g [.sdScan my todo unf unst]
  -- pthread.c:781-784
  | .br1 sig (n :: todo) =>
    if ptEq pt (g.nodes n).self t = false ∧ (g.nodes n).appl = true ∧ (g.nodes n).finiS = false then
      cont g [.brKill sig n todo]
    else cont g [.br1 sig todo]
  -- pthread.c:787-789
  | .br1 sig [] =>
    if ptEq pt g.main.self t = false then cont (g.emit t (.kill g.main.self (some sig))) [.br2 sig]
    else cont g [.br2 sig]
  | f => fstep g t ok v f

/-- One step, as `next`. -/
def nextP (pt : Tid → Nat) (s : S) : Lbl → Option S
  | .step t (.go ok v) =>
    if s.g.dead then none
    else
      match s.th t with
      | [] => none
      | f :: rest => (fstepP pt s.g t ok v f).map (applyRes s t rest)
  | l => next s l

/-- Reachable states, for executions whose labels satisfy `A`. -/
inductive ReachP (pt : Tid → Nat) (A : S → Lbl → Prop) : S → Prop
  | init : ReachP pt A {}
  | next {s s' : S} {l : Lbl} : ReachP pt A s → A s l → nextP pt s l = some s' → ReachP pt A s'

end Libmonitor.Proc
