import Verif.Proc.SpecLife
/-!
# Vocabulary of the statement about monitor_get_new_thread_info
-/

namespace Libmonitor.Proc

/-- The calls of pthread_create that thread `u` has entered and not left, innermost first. -/
def openCalls (u : Tid) : Hist → List Nat
  | [] => []
  | (t, e) :: old =>
    if t = u then
      match e with
      | .createCall c _ _ => c :: openCalls u old
      | .createRet _ => (openCalls u old).tail
      | _ => openCalls u old
    else openCalls u old

/-- `u` is the initial thread, or a created one that the library knows. -/
def registered (old : Hist) (u : Tid) : Prop := u = mainOf old ∨ ∃ k, (u, .linked k) ∈ old

/-- An event of a thread that creates threads only when it is registered, one at a time, none of them
ignored, and does not fork meanwhile (unless it is the initial thread). -/
def plainStep (u : Tid) (old : Hist) (t : Tid) (e : Ev) : Prop :=
  t = u →
    (∀ c st ar, e = .createCall c st ar → registered old u ∧ openCalls u old = []) ∧
    (∀ c, e = .createRet c → ∃ d, (u, .postCreate c d) ∈ old) ∧
    (∀ b, e = .forked b → registered old u ∧ (u = mainOf old ∨ openCalls u old = []))

def plain (u : Tid) (tr : Hist) : Prop := Always (plainStep u) tr

/-- What a query reports: the innermost call of pthread_create the thread is in, or failure. -/
def infoSpec (old : Hist) (t : Tid) (e : Ev) : Prop :=
  ∀ r, e = .gotInfo r → plain t old → r = (openCalls t old).head? ∧
    ∀ c, r = some c → ∃ st ar, (t, .createCall c st ar) ∈ old

end Libmonitor.Proc
