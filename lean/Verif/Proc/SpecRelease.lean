import Verif.Proc.SpecWait
/-!
# Vocabulary: threads that wait are released
-/

namespace Libmonitor.Proc

/-- Threads of the set `T` go on, one step at a time: nothing new is called and no signal arrives,
client and application code returns, external calls succeed, and timeouts are over. -/
inductive Run (T : Tid → Prop) : S → S → Prop
  | refl (s : S) : Run T s s
  | step {s s1 s' : S} {u : Tid} (hu : T u) (hn : next s (.step u (.go true 0)) = some s1)
      (h : Run T s1 s') : Run T s s'

/-- Part of the beginning of a process. -/
def Frame.begins : Frame → Bool
  | .bp0 isFork _ => isFork
  | .bpReset _ | .bpFlags _ | .rfReset => true
  | _ => false

/-- The process has begun, and no thread is about to begin it. -/
def settled (s : S) : Prop :=
  s.g.initCalled = true ∧ ∀ u, ∀ f ∈ s.th u, f.begins = false

end Libmonitor.Proc
