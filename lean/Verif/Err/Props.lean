import Verif.Err.Spec
/-!
# C65: the error of a failing call reaches the application
-/

namespace Libmonitor.Err

open Spec

variable {x : Env} {real : Fn → Bool} {P : Fn → Bool}

theorem last_ext (f : Fn) (w : W) (h : real f = true) :
    Last real (ext x f w).2.log (ext x f w).1 (ext x f w).2.errno :=
  ⟨[], _, w.log, rfl, h, by simp, rfl, rfl⟩

theorem kept_ext {f : Fn} {w : W} (h : Kept P (ext' x f w).log) : Kept P w.log :=
  fun c hc => h c (List.mem_cons_of_mem _ hc)

theorem kept_ext2 {f : Fn} {w : W} (h : Kept P (ext x f w).2.log) : Kept P w.log := kept_ext h

theorem kept_dbg {w : W} (h : Kept P (dbg x w).log) : Kept P w.log := by
  unfold dbg at h; split at h
  · exact kept_ext h
  · exact h

theorem kept_set {w : W} {e : Nat} (h : Kept P (w.set e).log) : Kept P w.log := h

/-- A call of another function that leaves errno alone. -/
theorem last_keep {f : Fn} {w : W} {r : Int} (hl : Last real w.log r w.errno) (hr : real f = false)
    (hp : P f = true) (h : Kept P (ext' x f w).log) :
    Last real (ext' x f w).log r (ext' x f w).errno := by
  obtain ⟨post, c, pre, h1, h2, h3, h4, h5⟩ := hl
  have hk := h _ List.mem_cons_self hp
  refine ⟨⟨f, (x.out w.log.length).1, w.errno, (x.out w.log.length).2.getD w.errno⟩ :: post, c, pre,
    ?_, h2, ?_, h4, h5.trans hk⟩
  · show _ :: w.log = _; rw [h1]; rfl
  · intro d hd
    rcases List.mem_cons.mp hd with rfl | hd
    · exact hr
    · exact h3 d hd

theorem last_dbg {w : W} {r : Int} (hl : Last real w.log r w.errno) (hr : real .debug = false)
    (hp : P .debug = true) (h : Kept P (dbg x w).log) :
    Last real (dbg x w).log r (dbg x w).errno := by
  unfold dbg at *; split
  · rename_i hd; rw [if_pos hd] at h; exact last_keep hl hr hp h
  · exact hl

theorem not_last {l : List Entry} {r : Int} {e : Nat}
    (h : ∀ c ∈ l, real c.fn = true → c.after ≠ e) : ¬ Last real l r e := by
  rintro ⟨post, c, pre, h1, h2, -, -, h5⟩
  exact h c (by rw [h1]; simp) h2 h5

/-- The functions whose effect on errno matters for fork: the callback and the messages. -/
def forkAfter (f : Fn) : Bool := f == .postFork || message f

/-- fork and vfork: if the real fork fails, the application gets its result and its errno, provided that
the post-fork callback and debug messages leave errno alone.
Missing: callbacks and messages that change errno; the claim is false there
(`C65_fork_callback`, `C65_fork_debug`). -/
theorem C65_fork_partial (x : Env) (w : W) (h : (fork x w).1 < 0)
    (hk : Kept forkAfter (fork x w).2.log) :
    Last (· == .fork) (fork x w).2.log (fork x w).1 (fork x w).2.errno := by
  revert h hk
  simp only [fork]
  generalize ext' x .preFork (dbg x (ext' x .init w)) = w
  have := last_ext (x := x) (real := (· == .fork)) .fork w rfl
  revert this
  generalize ext x .fork w = q
  obtain ⟨ret, w⟩ := q
  intro hl
  by_cases h0 : ret ≠ 0
  · simp only [h0, ↓reduceIte, ne_eq, not_false_eq_true]
    intro hn hk
    simp only [hn, ↓reduceIte] at hk ⊢
    have hk2 := kept_ext hk
    have hk3 := kept_dbg hk2
    exact last_keep (P := forkAfter)
      (last_dbg (P := forkAfter) (last_dbg (P := forkAfter) hl rfl rfl hk3) rfl rfl hk2) rfl rfl hk
  · simp only [h0, ↓reduceIte]
    intro hn; exact absurd hn (by omega)

/-- An environment given by its first outcomes; the other calls return 0 and leave errno alone. -/
def listed (debug : Bool) (l : List (Int × Option Nat)) : Env :=
  { debug := debug, out := fun k => l.getD k (0, none) }

/-- fork fails with EAGAIN (11), the callback leaves errno alone. -/
example : (fork (listed false [(0, none), (7, some 2), (-1, some 11)]) ⟨0, []⟩).1 < 0 ∧
    Kept forkAfter (fork (listed false [(0, none), (7, some 2), (-1, some 11)]) ⟨0, []⟩).2.log ∧
    (fork (listed false [(0, none), (7, some 2), (-1, some 11)]) ⟨0, []⟩).2.errno = 11 := by
  refine ⟨by decide, ?_, by decide⟩
  intro c hc
  revert c
  decide

/-- The post-fork callback changes errno: the application sees 0 instead of EAGAIN. -/
theorem C65_fork_callback :
    ∃ (x : Env) (w : W), x.debug = false ∧ (fork x w).1 < 0 ∧
      ¬ Last (· == .fork) (fork x w).2.log (fork x w).1 (fork x w).2.errno := by
  refine ⟨listed false [(0, none), (7, none), (-1, some 11), (0, some 0)], ⟨0, []⟩, rfl, by decide, ?_⟩
  exact not_last (by decide)

/-- A debug message changes errno (25, ENOTTY). -/
theorem C65_fork_debug :
    ∃ (x : Env) (w : W), Kept (· == .postFork) (fork x w).2.log ∧ (fork x w).1 < 0 ∧
      ¬ Last (· == .fork) (fork x w).2.log (fork x w).1 (fork x w).2.errno := by
  refine ⟨listed true [(0, none), (0, none), (7, none), (-1, some 11), (0, some 25)], ⟨0, []⟩,
    ?_, by decide, ?_⟩
  · intro c hc
    revert c
    decide
  exact not_last (by decide)

/-- exec*: a failing call gives the application the result and the errno of the real function, if the warning
for files that look executable leaves errno alone (for other files there is none).
Missing: warnings that change errno (`C65_exec_warning`). -/
theorem C65_exec_partial (x : Env) (dynamic : Bool) (w : W)
    (hk : Kept (· == .warn) (exec x dynamic w).2.log) :
    Last (· == .exec) (exec x dynamic w).2.log (exec x dynamic w).1 (exec x dynamic w).2.errno := by
  revert hk
  simp only [exec]
  generalize ext x .access (ext' x .init w) = q
  obtain ⟨a, w⟩ := q
  simp only []
  generalize (if a = 0 then if dynamic = true then ext' x Fn.endLibrary (ext' x Fn.endProcess (dbg x w))
    else ext' x Fn.endProcess (dbg x w) else dbg x w) = w
  have := last_ext (x := x) (real := (· == .exec)) .exec w rfl
  revert this
  generalize ext x .exec w = q
  obtain ⟨ret, w⟩ := q
  intro hl hk
  by_cases ha : a = 0
  · simp only [ha, ↓reduceIte] at hk ⊢
    exact last_keep (P := (· == .warn)) hl rfl rfl hk
  · simp only [ha, ↓reduceIte]
    exact hl

/-- A file that is not there: access and the real function fail with ENOENT (2). -/
example : (exec (listed false [(0, none), (-1, some 2), (-1, some 2)]) true ⟨0, []⟩).1 = -1 ∧
    Kept (· == .warn) (exec (listed false [(0, none), (-1, some 2), (-1, some 2)]) true ⟨0, []⟩).2.log ∧
    (exec (listed false [(0, none), (-1, some 2), (-1, some 2)]) true ⟨0, []⟩).2.errno = 2 := by
  refine ⟨by decide, ?_, by decide⟩
  intro c hc
  revert c
  decide

/-- An executable file with a wrong format: ENOEXEC (8) is overwritten by the warning (25). -/
theorem C65_exec_warning :
    ∃ (x : Env) (w : W), x.debug = false ∧ (exec x true w).1 < 0 ∧
      ¬ Last (· == .exec) (exec x true w).2.log (exec x true w).1 (exec x true w).2.errno :=
  ⟨listed false [(0, none), (0, none), (0, none), (0, none), (-1, some 8), (0, some 25)], ⟨0, []⟩, rfl,
    by decide, not_last (by decide)⟩

/-- monitor_real_execve fails with the real function's errno, or with EACCES for a NULL argument. -/
theorem C65_real_execve (x : Env) (w : W) :
    Last (· == .exec) (realExecve x false w).2.log (realExecve x false w).1
      (realExecve x false w).2.errno ∧
    (realExecve x true w).1 = -1 ∧ (realExecve x true w).2.errno = 13 := by
  refine ⟨?_, rfl, rfl⟩
  simp only [realExecve, Bool.false_eq_true, ↓reduceIte]
  exact last_ext .exec _ rfl

example : (realExecve (listed false [(0, none), (0, none), (-1, some 2)]) false ⟨0, []⟩) =
    (-1, ⟨2, [⟨.exec, -1, 0, 2⟩, ⟨.copyEnv, 0, 0, 0⟩, ⟨.init, 0, 0, 0⟩]⟩) := by decide

/-- What system() does after the call that failed. -/
def systemAfter (f : Fn) : Bool := f == .sigaction || f == .sigprocmask || f == .postFork || message f

theorem kept_systemEnd {callback : Bool} {st : Int} {w : W}
    (h : Kept P (systemEnd x callback st w).2.log) : Kept P w.log := by
  unfold systemEnd at h
  have h := kept_dbg h
  cases callback
  · exact kept_ext (kept_ext (kept_ext h))
  · exact kept_ext (kept_ext (kept_ext (kept_dbg (kept_ext h))))

theorem last_systemEnd {callback : Bool} {st r : Int} {w : W} (hl : Last real w.log r w.errno)
    (hr : ∀ f, systemAfter f = true → real f = false)
    (h : Kept systemAfter (systemEnd x callback st w).2.log) :
    Last real (systemEnd x callback st w).2.log r (systemEnd x callback st w).2.errno := by
  unfold systemEnd at *
  have hd := kept_dbg h
  cases callback
  · have h1 := kept_ext hd
    have h2 := kept_ext h1
    exact last_dbg (P := systemAfter) (last_keep (P := systemAfter) (last_keep (P := systemAfter)
      (last_keep (P := systemAfter) hl (hr _ rfl) rfl h2) (hr _ rfl) rfl h1) (hr _ rfl) rfl hd) (hr _ rfl) rfl h
  · have h0 := kept_ext hd
    have h1 := kept_dbg h0
    have h2 := kept_ext h1
    have h3 := kept_ext h2
    exact last_dbg (P := systemAfter) (last_keep (P := systemAfter) (last_dbg (P := systemAfter)
      (last_keep (P := systemAfter) (last_keep (P := systemAfter)
      (last_keep (P := systemAfter) hl (hr _ rfl) rfl h3) (hr _ rfl) rfl h2) (hr _ rfl) rfl h1) (hr _ rfl) rfl h0) (hr _ rfl) rfl hd)
      (hr _ rfl) rfl h

theorem systemEnd_errno {callback : Bool} {st : Int} {w : W}
    (h : Kept systemAfter (systemEnd x callback st w).2.log) :
    (systemEnd x callback st w).2.errno = w.errno := by
  have one : ∀ {f : Fn} {w : W}, systemAfter f = true → Kept systemAfter (ext' x f w).log →
      (ext' x f w).errno = w.errno := fun hf h => (h _ List.mem_cons_self hf).symm
  have oned : ∀ {w : W}, Kept systemAfter (dbg x w).log → (dbg x w).errno = w.errno := by
    intro w h
    unfold dbg at *; split
    · rename_i hd; rw [if_pos hd] at h; exact one rfl h
    · rfl
  unfold systemEnd at *
  have hd := kept_dbg h
  cases callback
  · have h1 := kept_ext hd
    have h2 := kept_ext h1
    exact (oned h).trans ((one rfl hd).trans ((one rfl h1).trans (one rfl h2)))
  · have h0 := kept_ext hd
    have h1 := kept_dbg h0
    have h2 := kept_ext h1
    have h3 := kept_ext h2
    exact (oned h).trans ((one rfl hd).trans ((oned h0).trans ((one rfl h1).trans
      ((one rfl h2).trans (one rfl h3)))))

theorem waitLoop_last (x : Env) (status : Int) (hs : 0 ≤ status) (fuel : Nat) (w : W) (st : Int) (w' : W)
    (h : waitLoop x status fuel w = some (st, w')) (hn : st < 0) :
    st = -1 ∧ ∃ r, r < 0 ∧ w'.errno ≠ EINTR ∧ Last (· == .waitpid) w'.log r w'.errno := by
  induction fuel generalizing w with
  | zero => simp [waitLoop] at h
  | succ n ih =>
    simp only [waitLoop] at h
    have hl := last_ext (x := x) (real := (· == .waitpid)) .waitpid w rfl
    revert h hl
    generalize ext x .waitpid w = q
    obtain ⟨r, w1⟩ := q
    intro h hl
    simp only [] at h
    by_cases hr : r < 0
    · simp only [hr, ↓reduceIte] at h
      by_cases he : w1.errno = EINTR
      · simp only [he, ne_eq, not_true_eq_false, ↓reduceIte] at h
        exact ih w1 h
      · simp only [he, ne_eq, not_false_eq_true, ↓reduceIte, Option.some.injEq, Prod.mk.injEq] at h
        obtain ⟨rfl, rfl⟩ := h
        exact ⟨rfl, r, hr, he, hl⟩
    · simp only [hr, ↓reduceIte, Option.some.injEq, Prod.mk.injEq] at h
      omega

/-- system(): if it fails, errno is that of the fork or waitpid that failed, and a wait that was merely
interrupted is not reported, provided that restoring the signals, the callback and messages leave errno
alone (`status`, from waitpid, is not negative).
Missing: callbacks and messages that change errno (`C65_system_callback`). -/
theorem C65_system_partial (x : Env) (callback : Bool) (status : Int) (hs : 0 ≤ status) (fuel : Nat)
    (w : W) (st : Int) (w' : W) (h : system x callback status fuel w = some (st, w')) (hn : st < 0)
    (hk : Kept systemAfter w'.log) :
    st = -1 ∧ ∃ r, r < 0 ∧ (Last (· == .fork) w'.log r w'.errno ∨
      (Last (· == .waitpid) w'.log r w'.errno ∧ w'.errno ≠ 4)) := by
  have hf : ∀ f, systemAfter f = true → (f == .fork) = false := by intro f; cases f <;> decide
  have hw : ∀ f, systemAfter f = true → (f == .waitpid) = false := by intro f; cases f <;> decide
  revert h
  simp only [system]
  generalize (ext' x Fn.sigprocmask (ext' x Fn.sigaction (ext' x Fn.sigaction
    (if callback = true then ext' x Fn.preFork (dbg x (dbg x (ext' x Fn.init w)))
      else dbg x (ext' x Fn.init w))))) = w
  have := last_ext (x := x) (real := (· == .fork)) .fork w rfl
  revert this
  generalize ext x .fork w = q
  obtain ⟨pid, w1⟩ := q
  intro hl h
  simp only [] at h
  by_cases hp : pid < 0
  · simp only [hp, ↓reduceIte, Option.some.injEq] at h
    have e1 : st = (systemEnd x callback (-1) (dbg x w1)).1 := by rw [h]
    have e2 : w' = (systemEnd x callback (-1) (dbg x w1)).2 := by rw [h]
    subst e1; subst e2
    exact ⟨rfl, pid, hp, .inl
      (last_systemEnd (last_dbg (P := systemAfter) hl rfl rfl (kept_systemEnd hk)) hf hk)⟩
  · simp only [hp, ↓reduceIte] at h
    by_cases h0 : pid = 0
    · simp [h0] at h
    · simp only [h0, ↓reduceIte, Option.map_eq_some_iff, Prod.exists] at h
      obtain ⟨st1, w2, h, h2⟩ := h
      have e1 : st1 = st := congrArg Prod.fst h2
      have e2 : w' = (systemEnd x callback st1 w2).2 := by rw [h2]
      subst e1; subst e2
      obtain ⟨e, r, hr, he, hl⟩ := waitLoop_last x status hs fuel w1 st1 w2 h hn
      have hl2 := last_systemEnd hl hw hk
      refine ⟨e, r, hr, .inr ⟨hl2, ?_⟩⟩
      rw [systemEnd_errno hk]
      exact he

/-- waitpid is interrupted once and then fails with ECHILD (10). -/
def echild : Env := listed false [(0, none), (7, none), (0, none), (0, none), (0, none), (1234, none),
  (-1, some 4), (-1, some 10)]

example : ∃ w', system echild true 0 9 ⟨0, []⟩ = some (-1, w') ∧ w'.errno = 10 ∧
    Kept systemAfter w'.log := by
  refine ⟨_, rfl, rfl, ?_⟩
  intro c hc
  revert c
  decide

/-- The post-fork callback of system() changes errno. -/
theorem C65_system_callback :
    ∃ (x : Env) (w w' : W), x.debug = false ∧ system x true 0 9 w = some (-1, w') ∧
      ∀ r, ¬ Last (fun f => f == .fork || f == .waitpid) w'.log r w'.errno :=
  ⟨listed false [(0, none), (7, none), (0, none), (0, none), (0, none), (-1, some 11), (0, none),
    (0, none), (0, none), (0, some 0)], ⟨0, []⟩, _, rfl, rfl, fun _ => not_last (by decide)⟩

theorem helper_log (x : Env) (sig : Int) (saved : Nat) (w : W) {r : Int} {e : Nat}
    (hl : Last (· == .sigwaitinfo) w.log r e) :
    Last (· == .sigwaitinfo) (helper x sig saved w).2.log r e := by
  have key : ∀ (f : Fn) (w : W), (f == .sigwaitinfo) = false →
      Last (· == .sigwaitinfo) w.log r e → Last (· == .sigwaitinfo) (ext' x f w).log r e := by
    intro f w hf ⟨post, c, pre, h1, h2, h3, h4, h5⟩
    refine ⟨⟨f, (x.out w.log.length).1, w.errno, (x.out w.log.length).2.getD w.errno⟩ :: post, c, pre,
      ?_, h2, ?_, h4, h5⟩
    · show _ :: w.log = _; rw [h1]; rfl
    · intro d hd
      rcases List.mem_cons.mp hd with rfl | hd
      · exact hf
      · exact h3 d hd
  have keyd : ∀ (w : W), Last (· == .sigwaitinfo) w.log r e → Last (· == .sigwaitinfo) (dbg x w).log r e := by
    intro w h; unfold dbg; split
    · exact key _ _ rfl h
    · exact h
  unfold helper
  split
  · exact hl
  · have h1 := key .test w rfl hl
    simp only []
    split
    · exact key .finiThread _ rfl (keyd _ h1)
    · have h2 := key .client _ rfl h1
      split
      · exact h2
      · exact key .member _ rfl h2

theorem waitSig_last (x : Env) (fuel : Nat) (w : W) (ret : Int) (saved : Nat) (w' : W)
    (h : waitSig x fuel w = some (ret, saved, w')) : Last (· == .sigwaitinfo) w'.log ret saved := by
  induction fuel generalizing w with
  | zero => simp [waitSig] at h
  | succ n ih =>
    simp only [waitSig] at h
    split at h
    · exact ih _ h
    · simp only [Option.some.injEq, Prod.mk.injEq] at h
      obtain ⟨rfl, rfl, rfl⟩ := h
      exact helper_log x _ _ _ (last_ext .sigwaitinfo w rfl)

/-- sigwaitinfo and sigtimedwait: result and errno are those of the last real call, whatever callbacks,
handlers and messages do; sigwait returns that errno if the call failed. -/
theorem C65_sigwait (x : Env) (fuel : Nat) (w : W) :
    (∀ r w', sigwaitinfo x fuel w = some (r, w') → Last (· == .sigwaitinfo) w'.log r w'.errno) ∧
    (∀ v w', sigwait x fuel w = some (v, w') → ∃ r e, Last (· == .sigwaitinfo) w'.log r e ∧
      v = if r < 0 then (e : Int) else 0) := by
  constructor
  · intro r w' h
    simp only [sigwaitinfo, Option.map_eq_some_iff, Prod.exists] at h
    obtain ⟨ret, saved, w2, h, h2⟩ := h
    simp only [Prod.mk.injEq] at h2
    obtain ⟨rfl, rfl⟩ := h2
    show Last _ w2.log ret saved
    exact waitSig_last x fuel _ _ _ _ h
  · intro v w' h
    simp only [sigwait, Option.map_eq_some_iff, Prod.exists] at h
    obtain ⟨ret, saved, w2, h, h2⟩ := h
    have := waitSig_last x fuel _ _ _ _ h
    by_cases hr : ret < 0
    · simp only [hr, ↓reduceIte, Prod.mk.injEq] at h2
      obtain ⟨rfl, rfl⟩ := h2
      exact ⟨ret, saved, this, by simp [hr]⟩
    · simp only [hr, ↓reduceIte, Prod.mk.injEq] at h2
      obtain ⟨rfl, rfl⟩ := h2
      exact ⟨ret, saved, this, by simp [hr]⟩

/-- A signal goes to the client, whose handler sets errno to 5; then the wait fails with EAGAIN (11). -/
example : (sigwaitinfo (listed false [(0, none), (10, none), (0, none), (0, some 5), (-1, some 11)]) 5
    ⟨0, []⟩).map (fun q => (q.1, q.2.errno)) = some (-1, 11) := by decide

/-- sigaction and signal: an invalid number gives −1 (SIG_ERR) and EINVAL; a reserved signal gives
sigaction's own result and errno; signal fails with EINVAL only; otherwise the result is 0. -/
theorem C65_sigaction (x : Env) (act : Bool) (w : W) :
    (∀ avoid, (sigaction x false avoid act w).1 = -1 ∧ (sigaction x false avoid act w).2.errno = 22) ∧
    Last (· == .sigaction) (sigaction x true true act w).2.log (sigaction x true true act w).1
      (sigaction x true true act w).2.errno ∧
    (sigaction x true false act w).1 = 0 ∧
    (∀ valid avoid, (signal x valid avoid w).1 = 0 ∨
      ((signal x valid avoid w).1 = -1 ∧ (signal x valid avoid w).2.errno = 22)) := by
  refine ⟨fun _ => ⟨rfl, rfl⟩, ?_, ?_, ?_⟩
  · simp only [sigaction, Bool.true_eq_false, ↓reduceIte]
    exact last_ext .sigaction _ rfl
  · simp [sigaction]
  · intro valid avoid
    simp only [signal]
    generalize sigaction x valid avoid true w = q
    obtain ⟨r, w⟩ := q
    by_cases h : r = 0
    · left; simp [h]
    · right; simp [h, W.set, EINVAL]

example : sigaction (listed false []) false false true ⟨0, []⟩ = (-1, ⟨22, [⟨.init, 0, 0, 0⟩]⟩) := by decide

/-- sigprocmask: result and errno are those of the real function. -/
theorem C65_sigprocmask (x : Env) (set : Bool) (w : W) :
    Last (· == .sigprocmask) (sigprocmask x set w).2.log (sigprocmask x set w).1
      (sigprocmask x set w).2.errno :=
  last_ext .sigprocmask _ rfl

example : (sigprocmask (listed false [(0, none), (-1, some 22)]) true ⟨0, []⟩).2.errno = 22 := by decide

/-- What the library's signal handler calls. -/
def handlerCalls (f : Fn) : Bool := f == .client || f == .handler || f == .raise

/-- monitor_signal_handler: the interrupted program finds errno as it was, if the handlers of client and
application restore it. -/
theorem C65_handler (x : Env) (client : Bool) (act : Act) (w : W)
    (hk : Kept handlerCalls (signalHandler x true client act w).log) :
    (signalHandler x true client act w).errno = w.errno := by
  have one : ∀ (f : Fn) (w : W), handlerCalls f = true → Kept handlerCalls (ext' x f w).log →
      (ext' x f w).errno = w.errno := fun f w hf h => (h _ List.mem_cons_self hf).symm
  simp only [signalHandler, Bool.true_eq_false, ↓reduceIte] at hk ⊢
  cases client
  · cases act
    · rfl
    · exact one .raise w rfl hk
    · exact one .handler w rfl hk
  · simp only [↓reduceIte] at hk ⊢
    revert hk
    have h1 := one .client w rfl
    revert h1
    simp only [ext']
    generalize hq : ext x .client w = q
    obtain ⟨r, w1⟩ := q
    intro h1 hk
    by_cases hr : r = 0
    · simp only [hr, ↓reduceIte] at hk ⊢
      exact h1 hk
    · simp only [hr, ↓reduceIte] at hk ⊢
      cases act
      · exact h1 hk
      · exact (one .raise w1 rfl hk).trans (h1 (kept_ext hk))
      · exact (one .handler w1 rfl hk).trans (h1 (kept_ext hk))

/-- The client passes the signal on to the application's handler. -/
example : (signalHandler (listed false [(1, none), (0, none)]) true true .handler ⟨7, []⟩).log.map (·.fn) =
    [.handler, .client] ∧
    Kept handlerCalls (signalHandler (listed false [(1, none), (0, none)]) true true .handler ⟨7, []⟩).log := by
  refine ⟨by decide, ?_⟩
  intro c hc
  revert c
  decide

/-- What dlopen and dlclose do after the real function. -/
def dlAfter (f : Fn) : Bool := f == .cbDlopen || f == .postDlclose || message f

/-- dlopen and dlclose: result and error state are those of the real function, if the later callback and
messages leave the error state alone.
Missing: callbacks that change it (`C65_dlopen_callback`). -/
theorem C65_dl_partial (x : Env) (w : W) :
    (Kept dlAfter (dlopen x w).2.log →
      Last (· == .dlopen) (dlopen x w).2.log (dlopen x w).1 (dlopen x w).2.errno) ∧
    (Kept dlAfter (dlclose x w).2.log →
      Last (· == .dlclose) (dlclose x w).2.log (dlclose x w).1 (dlclose x w).2.errno) := by
  constructor
  · intro hk
    have h1 := kept_dbg hk
    exact last_dbg (P := dlAfter) (last_keep (P := dlAfter) (last_ext .dlopen _ rfl) rfl rfl h1) rfl rfl hk
  · intro hk
    have h1 := kept_dbg hk
    exact last_dbg (P := dlAfter) (last_keep (P := dlAfter) (last_ext .dlclose _ rfl) rfl rfl h1) rfl rfl hk

example : Kept dlAfter (dlopen (listed true [(0, none), (0, none), (0, none), (0, some 3)]) ⟨0, []⟩).2.log ∧
    (dlopen (listed true [(0, none), (0, none), (0, none), (0, some 3)]) ⟨0, []⟩).2.errno = 3 := by
  refine ⟨?_, by decide⟩
  intro c hc
  revert c
  decide

/-- The client's dlopen callback calls a dl function that succeeds: dlerror has nothing to report any
more. -/
theorem C65_dlopen_callback :
    ∃ (x : Env) (w : W), x.debug = false ∧ (dlopen x w).1 = 0 ∧
      ¬ Last (· == .dlopen) (dlopen x w).2.log (dlopen x w).1 (dlopen x w).2.errno :=
  ⟨listed false [(0, none), (0, none), (0, some 3), (0, some 0)], ⟨0, []⟩, rfl, by decide,
    not_last (by decide)⟩

end Libmonitor.Err
