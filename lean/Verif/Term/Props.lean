import Verif.Term.Lemmas
/-!
# C66: the process dies by the signal that ended it, after the exit callbacks

The first theorem and `C66_abort_ends` are about all executions.  The theorems with suffix `_partial` are
about executions in which no thread gets through sigaction for a signal while another is about to end the
process with it (`Calm`): see `C66_survives`.
-/

namespace Libmonitor.Term

/-- A process killed by a signal has called monitor_end_process_fcn for that signal, or the client has
called monitor_real_abort.  (Not if the thread blocks a signal it causes itself: see `C66_blocked`.) -/
theorem C66_callbacks_first {s : S} (hs : Reach s) {sg : Nat} (hd : s.g.dead = some (.signal sg false)) :
    (∃ t, (t, Ev.callbacks sg) ∈ s.g.tr) ∨ (sg = 6 ∧ ∃ t, (t, Ev.abort) ∈ s.g.tr) :=
  ((inv hs).dead sg hd).1

/-- A signal with a harmless or stopping default action does not kill the process, and does not end the
process for the client. -/
theorem C66_harmless {s : S} (hs : Reach s) {sg : Nat} (h : noterm sg = true ∨ stop sg = true) :
    s.g.dead ≠ some (.signal sg false) ∧ ∀ t, (t, Ev.callbacks sg) ∉ s.g.tr := by
  refine ⟨?_, ?_⟩
  · intro hd
    have := ((inv hs).dead sg hd).2
    simp_all
  · intro t ht
    have := callbacks_deadly hs t sg ht
    simp_all

theorem dies {s : S} {t sg : Nat} {ex : Mask} {l : List Frame} (hk : s.g.kact sg = .dfl)
    (hm : s.g.mask t sg = false) (hn : noterm sg = false) (hs : stop sg = false) :
    (raise s.g t sg ex l).1.dead = some (.signal sg false) := by
  simp [raise, arrive, G.log, hk, hm, hn, hs]

/-- Once the handler has restored the default action and unblocked the signal, raise kills the process with
exactly this signal, whatever happened in between. -/
theorem C66_default_partial {s : S} (hs : ReachA Calm s) {t : Tid} {sg : Nat} {rest : List Frame}
    (he : s.th t = .e3 sg :: rest) (hd : s.g.dead = none) (hn : noraise sg = false) (ex : Mask) :
    ∃ s', next s (.go t ex) = some s' ∧ s'.g.dead = some (.signal sg false) := by
  have hc := (inv hs).frames t (.e3 sg) (by simp [he])
  have hk := dfl_inv hs t (.e3 sg) (by simp [he]) sg (by simp [Frame.ending])
  have hm := mask_inv hs t
  rw [he] at hm
  refine ⟨_, enabled hs hd he (by simp) (r := raise s.g t sg ex []) (by simp [fstep, hn]), ?_⟩
  exact dies hk (hm.1 sg rfl) hc.1 hc.2.1

/-- For a fault the handler returns, and the same fault kills the process, in whatever thread. -/
theorem C66_fault_partial {s : S} (hs : ReachA Calm s) {t : Tid} {sg : Nat} {rest : List Frame}
    (he : s.th t = .e3 sg :: rest) (hd : s.g.dead = none) (hn : noraise sg = true) (ex : Mask) :
    ∃ s', next s (.go t ex) = some s' ∧ s'.th t = rest ∧
      ∀ u ex', ∃ s'' b, next s' (.fault u sg ex') = some s'' ∧ s''.g.dead = some (.signal sg b) := by
  have hc := (inv hs).frames t (.e3 sg) (by simp [he])
  have hk := dfl_inv hs t (.e3 sg) (by simp [he]) sg (by simp [Frame.ending])
  have hst := enabled hs hd he (by simp) (r := (s.g, [])) (ex := ex) (by simp [fstep, hn])
  refine ⟨_, hst, by simp [put], ?_⟩
  intro u ex'
  have hb := bottom (A := fun _ _ => True) (s := put s t rest (s.g, []))
    (.next (weaken hs) trivial hst) u
  cases hu : (put s t rest (s.g, [])).th u with
  | nil => rw [hu] at hb; simp at hb
  | cons f l =>
    by_cases hmk : s.g.mask u sg = true
    · exact ⟨_, true, by simp only [next, hu]; simp [put, hd, hmk]; rfl, rfl⟩
    · refine ⟨_, false, by simp only [next, hu]; simp [put, hd, hmk]; rfl, ?_⟩
      simp [arrive, hk, hc.1, hc.2.1]

/-- monitor_real_abort kills the process with SIGABRT. -/
theorem C66_abort_partial {s : S} (hs : ReachA Calm s) {t : Tid} {rest : List Frame}
    (he : s.th t = .ab3 :: rest) (hd : s.g.dead = none) (ex : Mask) :
    ∃ s', next s (.go t ex) = some s' ∧ s'.g.dead = some (.signal 6 false) := by
  have hk := dfl_inv hs t .ab3 (by simp [he]) 6 rfl
  have hm := mask_inv hs t
  rw [he] at hm
  refine ⟨_, enabled hs hd he (by simp) (r := raise s.g t SIGABRT ex [.ab4]) rfl, ?_⟩
  exact dies hk (hm.1 6 rfl) rfl rfl

/-- monitor_real_abort never returns: a thread that has called it is inside, or the process is gone. -/
theorem C66_abort_ends {s : S} (hs : Reach s) {t : Tid} (h : (t, Ev.abort) ∈ s.g.tr) :
    s.g.dead.isSome = true ∨ ∃ f ∈ s.th t, f.aborting = true :=
  abort_inv hs t h

/-! ### Runs -/

def run (s : S) : List Lbl → Option S
  | [] => some s
  | l :: ls => (next s l).bind fun s' => run s' ls

theorem run_reach {s s' : S} {ls : List Lbl} (hs : Reach s) (h : run s ls = some s') : Reach s' := by
  induction ls generalizing s with
  | nil => simp only [run, Option.some.injEq] at h; exact h ▸ hs
  | cons l ls ih =>
    obtain ⟨m, hm, h⟩ := Option.bind_eq_some_iff.mp h
    exact ih (.next hs trivial hm) h

/-- The default action, without interruption and from any state: the handler, the exit callbacks (which
return), the default action installed, the signal unblocked, raise.  No matter what is blocked, or what
else the kernel has been told before. -/
theorem C66_run {s : S} (hs : Reach s) {t : Tid} {sg : Nat} {rest : List Frame}
    (he : s.th t = .hd sg :: rest) (hd : s.g.dead = none) (ha : s.g.appl sg = .dfl)
    (hk : noterm sg = false ∧ stop sg = false) (hn : noraise sg = false) (ex : Mask) :
    ∃ s', run s (List.replicate 6 (.go t ex)) = some s' ∧ s'.g.dead = some (.signal sg false) ∧
      (t, Ev.callbacks sg) ∈ s'.g.tr := by
  have hne : rest ≠ [] := by
    rintro rfl
    have := bottom hs t
    rw [he] at this
    simp at this
  obtain ⟨a, l, rfl⟩ : ∃ a l, rest = a :: l := by
    cases rest with
    | nil => exact absurd rfl hne
    | cons a l => exact ⟨a, l, rfl⟩
  simp [List.replicate, run, next, fstep, put, setTh, raise, arrive, G.log, G.setAct, G.setMask, he, hd, ha,
    hk.1, hk.2, hn]

/-! ### Witnesses -/

private def none' : Mask := fun _ => false
private def start (d : Disp) (m : Mask := none') : S := { g := { appl := fun _ => d, mask := fun _ => m } }
private def st? (s : S) (ls : List Lbl) : S := (run s ls).getD s

private theorem st_reach {d : Disp} {m : Mask} (ls : List Lbl) : Reach (st? (start d m) ls) := by
  unfold st?
  cases h : run (start d m) ls with
  | none => exact .init _ _
  | some s' => exact run_reach (.init _ _) h

private def go (t n : Nat) : List Lbl := List.replicate n (.go t none')

/-- SIGTERM (15) from outside in thread 1, which is killed by it; the hypotheses of `C66_callbacks_first`
and `C66_run`. -/
example : ∃ s, Reach s ∧ s.g.dead = some (.signal 15 false) ∧ (1, Ev.callbacks 15) ∈ s.g.tr :=
  ⟨st? (start .dfl) (.deliver 1 15 none' :: go 1 6), st_reach _, by decide, by decide⟩

example : ∃ s rest, Reach s ∧ s.th 1 = .hd 15 :: rest ∧ s.g.dead = none ∧ s.g.appl 15 = .dfl ∧
    noterm 15 = false ∧ stop 15 = false ∧ noraise 15 = false :=
  ⟨st? (start .dfl) [.deliver 1 15 none'], _, st_reach _, rfl, rfl, rfl, rfl, rfl, rfl⟩

/-- Steps that are calm because they install nothing. -/
private def plain (s : S) : Lbl → Bool
  | .go t _ => match s.th t with
    | .sa _ :: _ => false
    | _ => true
  | _ => true

private def runP (s : S) : List Lbl → Option S
  | [] => some s
  | l :: ls => if plain s l then (next s l).bind fun s' => runP s' ls else none

private theorem runP_reach {s s' : S} {ls : List Lbl} (hs : ReachA Calm s) (h : runP s ls = some s') :
    ReachA Calm s' := by
  induction ls generalizing s with
  | nil => simp only [runP, Option.some.injEq] at h; exact h ▸ hs
  | cons l ls ih =>
    simp only [runP] at h
    split at h
    · rename_i hp
      obtain ⟨m, hm, h⟩ := Option.bind_eq_some_iff.mp h
      refine ih (.next hs ?_ hm) h
      cases l <;> first | trivial | skip
      intro sg rest he
      simp [plain, he] at hp
    · simp at h

private def stP (s : S) (ls : List Lbl) : S := (runP s ls).getD s

private theorem stP_reach {d : Disp} {m : Mask} (ls : List Lbl) : ReachA Calm (stP (start d m) ls) := by
  unfold stP
  cases h : runP (start d m) ls with
  | none => exact .init _ _
  | some s' => exact runP_reach (.init _ _) h

/-- Hypotheses of `C66_default_partial`: thread 1 is about to raise SIGTERM; in the exit callback it has
blocked all signals, and thread 2 is ending the process with SIGINT (2) at the same time. -/
example : ∃ s rest, ReachA Calm s ∧ s.th 1 = .e3 15 :: rest ∧ s.g.dead = none ∧ noraise 15 = false ∧
    ∃ r2, s.th 2 = .e2 2 :: r2 :=
  ⟨stP (start .dfl) ([.deliver 1 15 none', .go 1 none', .go 1 none', .sigmask 1 (fun _ => true),
    .deliver 2 2 none'] ++ go 2 4 ++ go 1 3), _, stP_reach _, rfl, rfl, rfl, _, rfl⟩

/-- Hypotheses of `C66_fault_partial`. -/
example : ∃ s rest, ReachA Calm s ∧ s.th 1 = .e3 11 :: rest ∧ s.g.dead = none ∧ noraise 11 = true :=
  ⟨stP (start .dfl) (.fault 1 11 none' :: go 1 5), _, stP_reach _, rfl, rfl, rfl⟩

/-- Hypotheses of `C66_abort_partial`, with all signals blocked at first. -/
example : ∃ s rest, ReachA Calm s ∧ s.th 1 = .ab3 :: rest ∧ s.g.dead = none ∧ (1, Ev.abort) ∈ s.g.tr :=
  ⟨stP (start .hand fun _ => true) (.abort 1 :: go 1 2), _, stP_reach _, rfl, rfl, by decide⟩

/-- A thread can be inside a handler for SIGWINCH (28) with default action; it returns. -/
example : ∃ s, Reach s ∧ s.th 1 = [.app] ∧ s.g.dead = none ∧ noterm 28 = true ∧ s.g.tr = [] :=
  ⟨st? (start .dfl) (.deliver 1 28 none' :: go 1 2), st_reach _, rfl, rfl, rfl, rfl⟩

/-- The library's own way of ending the process is open to another thread: while thread 1 ends the process
with SIGTERM, between lines 257 and 263, thread 2 installs a handler for SIGTERM with sigaction.  The
raise of thread 1 then calls this handler, and the process lives on after its exit callbacks. -/
theorem C66_survives : ∃ s, Reach s ∧ s.th 1 = [.app] ∧ s.g.dead = none ∧
    s.g.tr = [(1, .handler 15), (1, .raise 15), (2, .sigaction 15 .hand), (1, .callbacks 15)] :=
  ⟨st? (start .dfl) (.deliver 1 15 none' :: go 1 5 ++ [.sigaction 2 15 .hand, .go 2 none'] ++ go 1 5),
    st_reach _, rfl, rfl, rfl⟩

/-- SIGSEGV sent from outside (kill): the handler gives the exit callbacks and returns, and since there is
no fault to repeat, the process lives on. -/
theorem C66_kill_segv : ∃ s, Reach s ∧ s.th 1 = [.app] ∧ s.g.dead = none ∧ s.g.tr = [(1, .callbacks 11)] :=
  ⟨st? (start .dfl) (.deliver 1 11 none' :: go 1 7), st_reach _, rfl, rfl, rfl⟩

/-- A fault of a thread that blocks the signal kills the process without any callback. -/
theorem C66_blocked : ∃ s, Reach s ∧ s.g.dead = some (.signal 11 true) ∧ s.g.tr = [] :=
  ⟨st? (start .dfl fun _ => true) [.fault 1 11 none'], st_reach _, rfl, rfl⟩

/-- Another thread can also get in the way of monitor_real_abort: then it is exit(1), without SIGABRT. -/
theorem C66_abort_exit : ∃ s, Reach s ∧ s.g.dead = some (.exit 1) :=
  ⟨st? (start .hand) (.abort 1 :: go 1 2 ++ [.sigaction 2 6 .hand, .go 2 none'] ++ go 1 5),
    st_reach _, rfl⟩

end Libmonitor.Term
