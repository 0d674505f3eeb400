import Verif.SigI.First
import Verif.Sig.Props

/-!
# C84: the first use of the signal table
-/

namespace Libmonitor.SigI

open Sig (Cfg)

/-- **C84**, the part that holds in all executions: however many threads and handlers call, at whatever
point, monitor_shootdown_signal returns a number, of a signal that can be caught and does not stop the
process. -/
theorem C84_valid_partial {f : Cfg} (hn : 31 ≤ f.nsig) {s : S} (hs : Reach f s) {c : Call} {v : Option Nat}
    (h : Ev.answer c v ∈ s.tr) : ∃ n, v = some n ∧ Valid f n := by
  obtain ⟨n, rfl, h1, h2, h3, h4⟩ := (val_inv hn hs).ev c v h
  refine ⟨n, rfl, h1, h2, ?_⟩
  simp [Sig.avoid, Sig.avoidList, Sig.stop, Sig.stopList] at h3 h4
  simp [h3, h4]

/-- **C84**, if monitor_signal_init has finished for the first time before there are other threads and
signals: monitor_shootdown_signal always returns the same number, of a signal that is kept open; a signal
for which the client has set a handler is kept open; every delivered signal finds the handler that the
client has set last, and the action that the application has set last or had from the beginning, which is
never libmonitor's own; and libmonitor's handler stays installed. -/
theorem C84_init_first_partial {f : Cfg} {s : S} (hs : ReachA f InitFirst s) :
    (∀ c d v w, Ev.answer c v ∈ s.tr → Ev.answer d w ∈ s.tr → v = w) ∧
    (∀ c n, Ev.answer c (some n) ∈ s.tr → s.keep n = true) ∧
    (∀ c g h, Ev.client c g h ∈ s.tr → s.keep g = true) ∧
    Right s.orig s.tr ∧
    (∀ c g, Ev.fin c ∈ s.tr → Usable f g → s.kernel g = .ours) := by
  rcases first_inv hs with h | h
  · exact ⟨fun c d v w hv => (by cases h.tr _ hv), fun c n hv => (by cases h.tr _ hv),
      fun c g x hv => (by cases h.tr _ hv), (forks h.tr).2.2, fun c g hv => (by cases h.tr _ hv)⟩
  · refine ⟨fun c d v w hv hw => (h.ans c v hv).trans (h.ans d w hw).symm, fun c n hv => ?_, h.keep, h.right,
      fun _ g _ hg => (h.app g hg).1⟩
    obtain ⟨m, hm, hk⟩ := h.kept
    have := h.ans c _ hv
    rw [hm] at this
    cases this
    exact hk

/-! ### What goes wrong otherwise -/

def execs (f : Cfg) (s : S) : List Lbl → Option S
  | [] => some s
  | l :: ls =>
    match next f s l with
    | some s' => execs f s' ls
    | none => none

theorem reach_execs {f : Cfg} {s s' : S} (hs : Reach f s) :
    ∀ {ls}, execs f s ls = some s' → Reach f s' := by
  intro ls
  induction ls generalizing s with
  | nil => intro h; cases h; exact hs
  | cons l ls ih =>
    intro h
    simp only [execs] at h
    split at h
    · rename_i s1 h1; exact ih (.next hs trivial h1) h
    · cases h

/-- All actions are the default, the variable is not set. -/
def boot : S := { orig := fun _ => 0, env := none, kernel := fun _ => .app 0 }

theorem exists_execs {ls : List Lbl} {r : List Ev} (h : (execs Sig.linux boot ls).map (·.tr) = some r) :
    ∃ s, Reach Sig.linux s ∧ s.tr = r := by
  cases e : execs Sig.linux boot ls with
  | none => rw [e] at h; cases h
  | some s =>
    rw [e] at h
    exact ⟨s, reach_execs (.init (orig := fun _ => 0) (env := none)) e, Option.some.inj h⟩

def go (t : Tid) (n : Nat) : List Lbl := List.replicate n (.go t)

/-- C84 is false as stated: a second thread that asks during the first initialisation has found no number
yet, and chooses one when the first thread has been told 42 and has made that one a signal that is kept open;
so it chooses 43, and the first thread is told 43 from then on. -/
theorem C84_changes : ∃ s, Reach Sig.linux s ∧ Ev.answer 0 (some 42) ∈ s.tr ∧ Ev.answer 2 (some 43) ∈ s.tr := by
  obtain ⟨s, hs, h⟩ := exists_execs (ls := [.call 0 .ask] ++ go 0 3 ++ [.call 1 .ask] ++ go 1 3 ++ go 0 74 ++
    go 1 4 ++ [.call 0 .ask] ++ go 0 1)
    (r := [.answer 2 (some 43), .answer 1 (some 43), .answer 0 (some 42), .fin 0]) (by decide +kernel)
  exact ⟨s, hs, by simp [h], by simp [h]⟩

/-- C84 is false as stated: the handler that a client sets in a second thread during the first initialisation
is cleared by it. -/
theorem C84_lost : ∃ s, Reach Sig.linux s ∧ lastClient 10 s.tr = some 7 ∧ ∃ c, Ev.deliver c 10 none (.app 0) ∈ s.tr := by
  obtain ⟨s, hs, h⟩ := exists_execs (ls := [.call 0 .init] ++ go 0 2 ++ [.call 1 (.client 10 7)] ++ go 1 3 ++
    go 0 72 ++ [.signal 0 10] ++ go 0 1)
    (r := [.deliver 2 10 none (.app 0), .fin 0, .client 1 10 7]) (by decide +kernel)
  exact ⟨s, hs, by rw [h]; rfl, 2, by simp [h]⟩

/-- C84 is false as stated: if two threads run the first initialisation, the second takes libmonitor's handler
for the application's action. -/
theorem C84_own : ∃ s, Reach Sig.linux s ∧ ∃ c, Ev.deliver c 10 none .ours ∈ s.tr := by
  obtain ⟨s, hs, h⟩ := exists_execs (ls := [.call 0 .init] ++ go 0 1 ++ [.call 1 .init] ++ go 1 74 ++
    go 0 70 ++ [.signal 0 10] ++ go 0 1)
    (r := [.deliver 2 10 none .ours, .fin 0, .fin 1]) (by decide +kernel)
  exact ⟨s, hs, 2, by simp [h]⟩

/-- C84 is false as stated: the action that the application sets in a second thread during the first
initialisation is replaced by the default one. -/
theorem C84_forgotten : ∃ s, Reach Sig.linux s ∧ lastAppl s.orig 10 s.tr = 7 ∧
    ∃ c, Ev.deliver c 10 none (.app 0) ∈ s.tr := by
  obtain ⟨s, hs, h⟩ := exists_execs (ls := [.call 0 .init] ++ go 0 3 ++ [.call 1 (.appl 10 7)] ++ go 1 2 ++
    go 0 71 ++ [.signal 0 10] ++ go 0 1)
    (r := [.deliver 2 10 none (.app 0), .fin 0, .appl 1 10 7]) (by decide +kernel)
  exact ⟨s, hs, by rw [h]; rfl, 2, by simp [h]⟩

/-- The hypothesis of `C84_init_first_partial`, checked along an execution. -/
def initFirst (f : Cfg) (s : S) : List Lbl → Bool
  | [] => true
  | l :: ls =>
    (s.tr.any (fun e => match e with | .fin _ => true | _ => false) ||
      match l with
      | .go t | .call t _ | .unwind t _ | .fork t | .setenv t _ => t == 0
      | .signal _ _ | .interrupt _ => false) &&
    match next f s l with
    | some s' => initFirst f s' ls
    | none => true

theorem reach_first {f : Cfg} {s s' : S} (hs : ReachA f InitFirst s) :
    ∀ {ls}, initFirst f s ls = true → execs f s ls = some s' → ReachA f InitFirst s' := by
  intro ls
  induction ls generalizing s with
  | nil => intro _ h; cases h; exact hs
  | cons l ls ih =>
    intro ha h
    simp only [execs] at h
    simp only [initFirst, Bool.and_eq_true, Bool.or_eq_true] at ha
    split at h
    · rename_i s1 h1
      rw [h1] at ha
      refine ih (.next hs (fun hc => ?_) h1) ha.2 h
      rcases ha.1 with k | k
      · obtain ⟨e, he, k⟩ := List.any_eq_true.1 k
        split at k
        · exact absurd he (hc _)
        · cases k
      · cases l <;> first | exact beq_iff_eq.1 k | cases k
    · cases h

def exampleRun : List Lbl := [.setenv 0 (some 50), .call 0 (.client 10 7)] ++ go 0 76 ++ [.call 1 (.appl 10 4)] ++
  go 1 1 ++ [.call 0 .ask, .setenv 2 none, .signal 0 10] ++ go 0 2 ++ go 1 1 ++ [.signal 2 10, .interrupt 2,
  .call 2 (.client 10 8)] ++ go 2 5 ++ [.fork 2, .call 2 .ask, .go 2, .signal 2 10, .go 2]
def exampleTr : List Ev := [.deliver 7 10 (some 8) (.app 4), .answer 6 (some 50), .fork,
  .deliver 4 10 (some 8) (.app 4), .client 5 10 8, .appl 1 10 4, .answer 2 (some 50),
  .deliver 3 10 (some 7) (.app 0), .client 0 10 7, .fin 0]

/-- An execution as in `C84_init_first_partial`: the variable is 50; a client sets its handler, which is the
first use; another thread sets an action and a third one a new handler, with signals in between, one of them
in the middle of monitor_shootdown_signal; a fork, and both again in the child. -/
example : ∃ s, ReachA Sig.linux InitFirst s ∧ Reach Sig.linux s ∧ Ev.answer 2 (some 50) ∈ s.tr ∧
    Ev.answer 6 (some 50) ∈ s.tr ∧ Ev.client 0 10 7 ∈ s.tr ∧ Ev.deliver 3 10 (some 7) (.app 0) ∈ s.tr ∧
    Ev.deliver 7 10 (some 8) (.app 4) ∈ s.tr ∧ Ev.fork ∈ s.tr ∧ Ev.fin 0 ∈ s.tr ∧ Usable Sig.linux 10 := by
  have h : ∃ s, execs Sig.linux boot exampleRun = some s ∧ s.tr = exampleTr := by
    have : (execs Sig.linux boot exampleRun).map (·.tr) = some exampleTr := by decide +kernel
    cases e : execs Sig.linux boot exampleRun with
    | none => rw [e] at this; cases this
    | some s => rw [e] at this; exact ⟨s, rfl, Option.some.inj this⟩
  obtain ⟨s, e, h⟩ := h
  have hs := reach_first (.init (orig := fun _ => 0) (env := none)) (by decide +kernel) e
  have hr := reach_execs (.init (orig := fun _ => 0) (env := none)) e
  refine ⟨s, hs, hr, ?_, ?_, ?_, ?_, ?_, ?_, ?_, by decide, by decide, by decide, by decide⟩ <;> rw [h] <;> decide

example : 31 ≤ Sig.linux.nsig := by decide

end Libmonitor.SigI
