import Verif.SigC.Lemmas

/-!
# C59: signal actions in programs with several threads

What the application gets from sigaction and from the delivery of signals, when calls and
deliveries interleave.  For all executions only single words can be vouched for; if calls to
sigaction do not overlap, the handler called is that of the last setting or of the one before
a call in progress; if also no signal arrives during a call everything is as the kernel would
do it.  The witnesses show that these conditions are needed.
-/

namespace Libmonitor.SigC

/-- In all executions: each handler called, each flag obeyed and each word of an action returned
by sigaction is that of some action that the application has set before, or of the one found
at the start; the client's handler called is one that the client has registered (or NULL). -/
theorem C59_known {A : S → Lbl → Prop} {a : Act} {k : Kern} {s : S} (h : ReachA A a k s) :
    Always (Known a) s.g.tr :=
  (known_inv h).2.1

/-- If calls to sigaction and monitor_sigaction do not overlap and are not left by longjmp (but
signals may arrive at any time, also during the calls and in other threads): the handler
called, or the default action or the ignoring, is that of the last setting or of the setting
before a call that is still in progress; sigaction returns the action set before it; and
whenever no call is in progress flags and mask in the kernel are those set last, and so is the
action used for deliveries.  Missing: overlapping calls; that handler and flags match. -/
theorem C59_one_call_partial {a : Act} {k : Kern} {s : S} (h : ReachA OneCall a k s) :
    Always (Either a) s.g.tr ∧
      ((∀ t, ∀ f ∈ s.th t, f.inCall = false) →
        s.g.sys = lastKern k s.g.tr ∧ s.g.appl = current a s.g.tr) := by
  obtain ⟨_, hone, hal⟩ := one_inv h
  refine ⟨hal, fun hq => ?_⟩
  rcases hone with ⟨_, hd⟩ | ⟨o, f, p, pk, h1, _⟩
  · exact ⟨hd.2.2.2, hd.1⟩
  · rw [calls_nil.2 (hq o)] at h1; simp at h1

/-- If only one thread at a time is in the library, and no signal arrives there: the handler
called is that of the action set last, it is a handler, and it gets siginfo exactly if that
action asked for it; a signal is ignored, or defaulted, exactly under an action that says so;
sigaction returns the action set before it; the client's handler called is the one it
registered last, it is called first for every signal that arrives, and the application's action
is applied exactly to the signals it passes on (all, if there is none); when no thread is in the
library the kernel has the flags and mask set last, and all signals have been dealt with.
Missing: all other executions, see the witnesses. -/
theorem C59_alone_partial {a : Act} {k : Kern} {s : S} (h : ReachA Alone a k s) :
    Always (Right a) s.g.tr ∧
      (Quiet s → s.g.sys = lastKern k s.g.tr ∧ ∀ t, ¬ Pending t s.g.tr) := by
  obtain ⟨h1, h2, h3⟩ := alone_inv h
  refine ⟨h3, fun hq => ⟨((C59_one_call_partial h1).2 fun t f hf =>
    calls_nil.1 (idle_calls h2 (hq t)) f hf).1, fun t => ?_⟩⟩
  have hi := hq t
  cases e : s.th t with
  | nil => simp [e, idle] at hi
  | cons f r =>
    rw [e] at hi
    cases f <;> simp only [idle, reduceCtorEq] at hi
    exact h2.seen t _ _ e

/-! ## Schedules -/

def G_ (t : Tid) (n : Nat) : List Lbl := List.replicate n ⟨t, .go false⟩

def act (h : Nat) (info : Bool) (mask : Nat) : Act := ⟨h, ⟨info, 0⟩, mask⟩

def dfl : Act := act 0 false 0

def kern0 : Kern := ⟨⟨true, 0⟩, 0⟩

/-- A call that sets the action and asks for the old one, as a whole. -/
def setOld (t : Tid) (b : Act) : List Lbl := ⟨t, .sigaction (some b) true⟩ :: G_ t 11

/-- A call that sets the action, as a whole. -/
def set (t : Tid) (b : Act) : List Lbl := ⟨t, .sigaction (some b) false⟩ :: G_ t 8

/-- A delivery up to the call of the application's handler; no client handler. -/
def arrive (t : Tid) : List Lbl := ⟨t, .deliver⟩ :: G_ t 5

/-- Two threads in turn: each sets an action and gets the old one, a signal arrives, its handler
sets another action, the client registers a handler that passes the signal on, and another
signal arrives. -/
example : ∃ s, ReachA Alone dfl kern0 s ∧
    (decide ((0, Ev.ret 0 (some dfl)) ∈ s.g.tr ∧ (1, Ev.ret 1 (some (act 5 true 9))) ∈ s.g.tr ∧
      (0, Ev.run 6 false) ∈ s.g.tr ∧ (1, Ev.clientRun 3) ∈ s.g.tr ∧
      (1, Ev.run 7 true) ∈ s.g.tr ∧ s.g.sys = ⟨⟨true, 0⟩, 4⟩)) = true :=
  exists_of_run (ls := setOld 0 (act 5 true 9) ++ setOld 1 (act 6 false 2) ++ arrive 0 ++
    set 0 (act 7 true 4) ++ [⟨0, .back⟩] ++ (⟨1, .client 3 none⟩ :: G_ 1 2) ++
    (⟨1, .deliver⟩ :: G_ 1 2) ++ [⟨1, .back⟩] ++ G_ 1 5) (by decide)

/-- A signal arrives during a call and runs the old handler, the same call later runs the new. -/
example : ∃ s, ReachA OneCall dfl kern0 s ∧
    (decide ((0, Ev.run 5 true) ∈ s.g.tr ∧ (1, Ev.run 6 true) ∈ s.g.tr ∧
      (0, Ev.ret 1 (some (act 5 true 9))) ∈ s.g.tr)) = true :=
  exists_of_run (ls := set 0 (act 5 true 9) ++ [⟨0, .sigaction (some (act 6 true 2)) true⟩] ++
    G_ 0 2 ++ arrive 0 ++ [⟨0, .back⟩] ++ G_ 0 3 ++ arrive 1 ++ [⟨1, .back⟩] ++ G_ 0 6) (by decide)

/-! ## Witnesses -/

/-- A single thread, one call at a time: the signal arrives while a handler that wants siginfo
replaces one that does not.  The new handler is called without siginfo, although no action
with this handler and without SA_SIGINFO was ever set. -/
theorem C59_torn : ∃ s, ReachA OneCall dfl kern0 s ∧
    (decide ((0, Ev.run 6 false) ∈ s.g.tr ∧
      s.g.tr.all (fun x => match x.2 with
        | .call _ (some b) _ => b.h != 6 || b.flags.info
        | _ => true) = true)) = true :=
  exists_of_run (ls := set 0 (act 5 false 0) ++ [⟨0, .sigaction (some (act 6 true 0)) false⟩] ++
    G_ 0 2 ++ arrive 0) (by decide)

/-- Another thread sets SIG_DFL after the handler has compared with it: the library calls
address 0. -/
theorem C59_calls_null : ∃ s, ReachA OneCall dfl kern0 s ∧
    (decide ((1, Ev.run 0 false) ∈ s.g.tr)) = true :=
  exists_of_run (ls := set 0 (act 5 false 0) ++ [⟨1, .deliver⟩] ++ G_ 1 4 ++
    set 0 dfl ++ G_ 1 1) (by decide)

/-- The client removes its handler while the signal is being delivered in another thread: the
library calls address 0. -/
theorem C59_calls_null_client : ∃ s, ReachA OneCall dfl kern0 s ∧
    (decide ((1, Ev.clientRun 0) ∈ s.g.tr)) = true :=
  exists_of_run (ls := (⟨0, .client 3 none⟩ :: G_ 0 2) ++ [⟨1, .deliver⟩] ++ G_ 1 1 ++
    (⟨0, .client 0 none⟩ :: G_ 0 2) ++ G_ 1 1) (by decide)

/-- Two threads exchange the action at the same time: both get the same old action, so that one
of the new ones is reported to nobody. -/
theorem C59_lost_action : ∃ s, Reach dfl kern0 s ∧
    (decide ((0, Ev.ret 0 (some dfl)) ∈ s.g.tr ∧ (1, Ev.ret 1 (some dfl)) ∈ s.g.tr ∧
      s.th 0 = [.app] ∧ s.th 1 = [.app])) = true :=
  exists_of_run (A := fun _ _ => True)
    (ls := [⟨0, .sigaction (some (act 5 false 0)) true⟩] ++ G_ 0 3 ++ setOld 1 (act 6 false 0) ++
    G_ 0 8) (by decide)

/-- Two threads set actions at the same time and both return.  For good, the handler of one is
called while the kernel applies flags and mask of the other. -/
theorem C59_mixed : ∃ s, Reach dfl kern0 s ∧
    (decide (s.g.appl = act 5 true 1 ∧ s.g.sys = (act 6 false 2).kern ∧
      s.th 0 = [.app] ∧ s.th 1 = [.app])) = true :=
  exists_of_run (A := fun _ _ => True)
    (ls := [⟨0, .sigaction (some (act 6 false 2)) false⟩] ++ G_ 0 4 ++ set 1 (act 5 true 1) ++
    G_ 0 4) (by decide)

/-- A single thread: the signal arrives during the call and the handler leaves by longjmp.  The
action stays half set: the new handler with the flags of the old action. -/
theorem C59_longjmp : ∃ s, Reach dfl kern0 s ∧
    (decide (s.g.appl = act 6 false 2 ∧ s.th 0 = [.app] ∧
      current dfl s.g.tr = act 6 true 3)) = true :=
  exists_of_run (A := fun _ _ => True)
    (ls := set 0 (act 5 false 2) ++ [⟨0, .sigaction (some (act 6 true 3)) false⟩] ++ G_ 0 2 ++
    arrive 0 ++ [⟨0, .unwind⟩]) (by decide)

end Libmonitor.SigC
