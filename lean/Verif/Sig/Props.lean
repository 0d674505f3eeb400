import Verif.Sig.Lemmas2

/-!
# C25–C31, C47–C50: signals

`31 ≤ c.nsig` says that the classic signals exist (NSIG is 65 on Linux).  A typical
platform, used in the examples: 65 numbers, 32 and 33 taken by the C library, realtime
signals 34..64, no configured client signals, no environment variable.
-/

namespace Libmonitor.Sig

def linux : Cfg :=
  { nsig := 65, kernelOk := fun s => decide (1 ≤ s) && decide (s < 65) && !(s == 32) && !(s == 33),
    openList := [27], rtmin := 34, rtmax := 64, config := -1, env := none }

/-- Default dispositions, empty masks. -/
def boot : S := start (fun _ => zeroAct) (fun _ => emptySet)

/-! ## C25 -/

/-- **C25.** Whatever the history before (`ops1`) and after (`ops2`): a signal the client asked
to keep open in `ops1` (or by configuration), and the shootdown signal, stays
blocked or unblocked in each thread exactly as it was, as long as the thread number is not
reused for a new thread. -/
theorem C25_kept_mask_unchanged (c : Cfg) (hn : 31 ≤ c.nsig) (k : Nat → Act) (m : Nat → Set)
    (ops1 ops2 : List Op) (sig : Nat)
    (hsig : Spec.ClientSignal c ops1 sig ∨
      (Spec.Managed c sig ∧ (sig : Int) = (init c (run c (start k m) ops1).1).shoot))
    (t : Nat) (ht : ∀ p, Op.newThread p t ∉ ops2) :
    (run c (start k m) (ops1 ++ ops2)).1.masks t sig = (run c (start k m) ops1).1.masks t sig := by
  have hm : Spec.Managed c sig := by
    rcases hsig with h | h
    · exact h.1
    · exact h.1
  have hk : (init c (run c (start k m) ops1).1).keepOpen sig = true := by
    rw [keep_start c hn k m ops1 sig hm]
    rcases hsig with h | h
    · exact Or.inl h
    · exact Or.inr h.2
  rw [run_append]
  have ok := run_ok c hn (start k m) (Or.inl rfl) ops1
  generalize (run c (start k m) ops1).1 = s at hk ok
  clear hsig
  induction ops2 generalizing s with
  | nil => rfl
  | cons op ops ih =>
    have h1 := step_mask c hn s ok op sig hm hk t
    have h2 : (init c (step c s op).1).keepOpen sig = true :=
      ((step_shoot_keep c hn s ok op).2 sig hm).2 (Or.inl hk)
    have h3 := ih (fun p h => ht p (by simp [h])) _ h2 (step_ok c hn s ok op)
    simp only [run]
    rw [h3, h1]
    cases op with
    | newThread p ch =>
      have : t ≠ ch := by rintro rfl; exact ht p (by simp)
      simp [this]
    | _ => rfl

/-- **C25**, all threads: if no thread has the signal blocked when the client asks for it, no
thread, old or new, ever has. -/
theorem C25_never_blocked (c : Cfg) (hn : 31 ≤ c.nsig) (k : Nat → Act) (m : Nat → Set)
    (ops1 ops2 : List Op) (sig : Nat) (hsig : Spec.ClientSignal c ops1 sig)
    (h0 : ∀ t, (run c (start k m) ops1).1.masks t sig = false) (t : Nat) :
    (run c (start k m) (ops1 ++ ops2)).1.masks t sig = false := by
  have hk : (init c (run c (start k m) ops1).1).keepOpen sig = true :=
    (keep_start c hn k m ops1 sig hsig.1).2 (Or.inl hsig)
  rw [run_append]
  have ok := run_ok c hn (start k m) (Or.inl rfl) ops1
  have hm := hsig.1
  generalize (run c (start k m) ops1).1 = s at hk ok h0
  clear hsig
  induction ops2 generalizing s with
  | nil => exact h0 t
  | cons op ops ih =>
    refine ih _ (((step_shoot_keep c hn s ok op).2 sig hm).2 (Or.inl hk)) (step_ok c hn s ok op) ?_
    intro u
    refine (step_mask c hn s ok op sig hm hk u).trans ?_
    cases op with
    | newThread p ch => simp only; split <;> exact h0 _
    | _ => exact h0 u

/-- **C25**, the other side: the library does not interfere with other signals; on those a
call with a known `how` acts as on a plain kernel. -/
theorem C25_other_signals (c : Cfg) (hn : 31 ≤ c.nsig) (k : Nat → Act) (m : Nat → Set)
    (ops : List Op) (t : Nat) (how : Int) (set : Set) (sig : Nat) (hm : Spec.Managed c sig)
    (hsig : ¬ Spec.ClientSignal c ops sig)
    (hsh : (sig : Int) ≠ (init c (run c (start k m) ops).1).shoot) :
    (run c (start k m) (ops ++ [.sigmask t how (some set)])).1.masks t sig =
      (let cur := (run c (start k m) ops).1.masks t sig
       if how = 0 then cur || set sig
       else if how = 1 then cur && !set sig
       else if how = 2 then set sig
       else cur) := by
  rw [run_append]
  have ok := run_ok c hn (start k m) (Or.inl rfl) ops
  have hk : ¬ (init c (run c (start k m) ops).1).keepOpen sig = true := by
    rw [keep_start c hn k m ops sig hm]
    rintro (h | h)
    · exact hsig h
    · exact hsh h
  generalize (run c (start k m) ops).1 = s at hk ok
  have inv := init_inv c hn s ok
  simp only [run, step, sigmask, kernelMask]
  have hr := removeClientSignals_apply c (init c s) ((init c s).masks t) set how sig
  rw [if_neg (fun h => hk ((kept_iff inv hm) ▸ h.2.2))] at hr
  have hms := init_masks c hn s ok
  rw [hms] at hr
  by_cases h0 : how = 0
  · subst h0
    simp only [SIG_BLOCK] at *
    simp [hr, hms]
  · by_cases h1 : how = 1
    · subst h1
      simp only [SIG_BLOCK, SIG_UNBLOCK] at *
      simp [hr, hms]
    · by_cases h2 : how = 2
      · subst h2
        simp only [SIG_BLOCK, SIG_UNBLOCK, SIG_SETMASK] at *
        simp [hr, hms]
      · simp only [SIG_BLOCK, SIG_UNBLOCK, SIG_SETMASK]
        simp [h0, h1, h2, hms]

example : Spec.ClientSignal linux [.client 10 (some 7) none] 10 ∧
    Spec.ClientSignal linux [] 27 ∧ ¬ Spec.ClientSignal linux [] 15 := by
  refine ⟨⟨by decide, Or.inr ⟨some 7, none, by simp⟩⟩, ⟨by decide, Or.inl (by decide)⟩, ?_⟩
  rintro ⟨_, h | ⟨_, _, h⟩⟩
  · revert h; decide
  · cases h

/-- Blocking everything leaves SIGPROF (configured), SIGUSR1 (registered) and the shootdown
signal open, but blocks SIGTERM. -/
example :
    let s := (run linux boot [.client 10 (some 7) none, .sigmask 0 2 (some fun _ => true)]).1
    s.masks 0 10 = false ∧ s.masks 0 27 = false ∧ s.masks 0 42 = false ∧ s.masks 0 15 = true := by
  decide +kernel

/-! ## C26 -/

/-- **C26.** For every initial table and every history of calls by application, client and
library, every answer the application gets from `sigaction` and `signal` is the answer of
a plain kernel that never saw the client or the library. -/
theorem C26_virtualised (c : Cfg) (hn : 31 ≤ c.nsig) (h9 : c.kernelOk 9 = true)
    (h19 : c.kernelOk 19 = true) (k : Nat → Act) (m : Nat → Set) (ops : List Op) :
    (run c (start k m) ops).2.map Spec.appView = Spec.replies c k ops :=
  (sim_run c hn h9 h19 k (start k m) (Or.inl rfl) (sim_start c hn k m) ops).2

example : (run linux boot [.sigaction 0 15 (some ⟨.fn 3, 0#32, emptySet⟩), .client 15 (some 9) none,
    .shootdown, .signal 1 15 .ign, .signal 0 15 .dfl, .signal 0 32 .ign, .signal 0 9 .ign]).2.map
      (fun r => match r with | .handler h => some h | _ => none) =
    [none, none, none, some (some (.fn 3)), some (some .ign), some none, some none] := by
  decide +kernel

/-! ## C27 -/

/-- **C27.** After every history, the kernel's action for every managed signal is the
library's handler with the required flags and the shootdown signal in its mask; the
only exception is the shootdown signal itself once the library has installed its
shootdown handler. -/
theorem C27_kernel_handlers (c : Cfg) (hn : 31 ≤ c.nsig) (k : Nat → Act) (m : Nat → Set)
    (ops : List Op) (sig : Nat) (hm : Spec.Managed c sig) :
    let s := init c (run c (start k m) ops).1
    (((s.kernel sig).h = .monitor ∧
      (s.kernel sig).flags &&& SA_SIGINFO ≠ 0#32 ∧ (s.kernel sig).flags &&& SA_RESTART ≠ 0#32 ∧
      (s.kernel sig).flags &&& SA_RESETHAND = 0#32 ∧ (s.kernel sig).flags &&& SA_ONSTACK = 0#32 ∧
      (s.kernel sig).mask s.shoot.toNat = true) ∨
     ((sig : Int) = s.shoot ∧ .shootdown ∈ ops ∧ (s.kernel sig).h = .shootdown)) := by
  have h := run_kinv c hn (start k m) (Or.inl rfl) false (init_kinv c hn (start k m) rfl) ops sig hm
  rcases h with ⟨a, ⟨b1, b2, b3, b4⟩, d⟩ | ⟨a, b, d⟩
  · exact Or.inl ⟨a, b1, b2, b3, b4, d⟩
  · refine Or.inr ⟨b, ?_, by rw [d]⟩
    simp only [Bool.false_or, List.any_eq_true] at a
    obtain ⟨op, h1, h2⟩ := a
    cases op with
    | shootdown => exact h1
    | _ => cases h2

/-- **C27**, masks: after a `sigaction` by the application the kernel's mask for the handler
is the application's mask without the client's signals known at that time, plus the
shootdown signal. -/
theorem C27_kernel_mask (c : Cfg) (hn : 31 ≤ c.nsig) (k : Nat → Act) (m : Nat → Set)
    (ops : List Op) (t : Nat) (sig : Nat) (hm : Spec.Managed c sig) (a : Act) (x : Nat)
    (hx : Spec.Managed c x) :
    let s := (run c (start k m) (ops ++ [.sigaction t sig (some a)])).1
    ((s.kernel sig).mask x = true ↔
      (x : Int) = s.shoot ∨ (a.mask x = true ∧ ¬ Spec.ClientSignal c ops x)) := by
  have hks := keep_start c hn k m ops x hx
  simp only
  rw [run_append]
  have ok := run_ok c hn (start k m) (Or.inl rfl) ops
  generalize (run c (start k m) ops).1 = s at hks ok
  have inv := init_inv c hn s ok
  simp only [run, step]
  obtain ⟨e, _⟩ := applSigaction_kernel c hn s ok t sig hm a
  rw [e, upd_self, (applSigaction_fields c s t sig (some a)).2.1]
  simp only [sigaddset]
  by_cases hsh : x = (init c s).shoot.toNat
  · have := inv.shoot.1
    have h2 : (x : Int) = (init c s).shoot := by omega
    rw [← hsh]; simp [h2]
  · rw [upd_ne _ _ hsh, removeClientSignals_apply, kept_iff inv hx]
    have h2 : ¬ (x : Int) = (init c s).shoot := by omega
    simp only [h2, or_false, false_or] at hks ⊢
    simp only [hx.1, hx.2.1, true_and, SIG_BLOCK, true_or, if_true]
    by_cases hko : (init c s).keepOpen x = true
    · have := hks.1 hko; simp [hko, this]
    · have : ¬ Spec.ClientSignal c ops x := fun h => hko (hks.2 h)
      simp [hko, this]

example :
    let s := (run linux boot [.client 10 (some 7) none,
      .sigaction 0 15 (some ⟨.fn 1, SA_ONSTACK, fun _ => true⟩)]).1
    (s.kernel 15).flags = required ∧ (s.kernel 15).mask 10 = false ∧ (s.kernel 15).mask 42 = true ∧
      (s.kernel 15).mask 2 = true := by decide +kernel

/-! ## C28 -/

theorem noterm_iff (s : Nat) : noterm s = true ↔ s = 17 ∨ s = 18 ∨ s = 23 ∨ s = 28 := by
  simp [noterm, notermList]

theorem noraise_iff (s : Nat) : noraise s = true ↔ s = 11 ∨ s = 7 ∨ s = 4 := by
  simp [noraise, noraiseList]

theorem run_inited (c : Cfg) (hn : 31 ≤ c.nsig) (k : Nat → Act) (m : Nat → Set) (ops : List Op)
    (hi : (run c (start k m) ops).1.inited = true) : Inv c (run c (start k m) ops).1 := by
  rcases run_ok c hn (start k m) (Or.inl rfl) ops with h | h
  · rw [hi] at h; cases h
  · exact h

/-- **C28**, client first: when the client has a handler for the signal it is called before
anything else, and if it accepts, nothing else happens. -/
theorem C28_client_first (c : Cfg) (hn : 31 ≤ c.nsig) (dyn : Bool) (k : Nat → Act)
    (m : Nat → Set) (ops : List Op) (sig : Nat) (hm : Spec.Managed c sig) (ret : Int)
    (hi : (run c (start k m) ops).1.inited = true) (id : Nat)
    (hc : (run c (start k m) ops).1.client sig = some id) :
    (∃ rest, handler c dyn (run c (start k m) ops).1 sig ret = .client id :: rest ∧
      (∀ i, Eff.client i ∉ rest)) ∧
    (ret = 0 → handler c dyn (run c (start k m) ops).1 sig ret = [.client id]) := by
  have inv := run_inited c hn k m ops hi
  have hv := (managed_iff_valid inv hm.1 hm.2.1).1 hm
  generalize (run c (start k m) ops).1 = s at *
  unfold handler
  simp only [Int.toNat_natCast, hv.1, hv.2, hc, Bool.false_eq_true, or_self, if_false]
  rw [if_neg (by have := hm.1; have := hm.2.1; omega)]
  constructor
  · split
    · exact ⟨[], rfl, by simp⟩
    · cases (s.appl sig).h with
      | ign => exact ⟨[], rfl, by simp⟩
      | dfl =>
        simp only
        split
        · exact ⟨[], rfl, by simp⟩
        · split
          · exact ⟨_, rfl, by simp⟩
          · refine ⟨[.endProcess] ++ (if dyn then [.endLibrary] else []) ++
              [.setDefault, .clearMask] ++ (if noraise sig then [] else [.raiseSelf]), rfl, ?_⟩
            intro i
            by_cases hnr : noraise sig = true <;> cases dyn <;> simp [hnr]
      | fn j =>
        simp only
        split
        · exact ⟨_, rfl, by simp⟩
        · exact ⟨_, rfl, by simp⟩
  · intro h; simp [h]

/-- **C28** (what holds).  After every history, if the client has no handler or declines, a
managed signal has exactly the outcome that the disposition the application set has on a
plain kernel; and the exit callbacks run exactly when the outcome is termination.  Missing:
a SIGSEGV, SIGBUS or SIGILL *sent* to the process with the default action, see
`C28_sent_fault_survived`. -/
theorem C28_dispatch_partial (c : Cfg) (hn : 31 ≤ c.nsig) (h9 : c.kernelOk 9 = true)
    (h19 : c.kernelOk 19 = true) (dyn : Bool) (k : Nat → Act)
    (m : Nat → Set) (ops : List Op) (sig : Nat) (hm : Spec.Managed c sig) (ret : Int) (fault : Bool)
    (hi : (run c (start k m) ops).1.inited = true)
    (hc : (run c (start k m) ops).1.client sig = none ∨ ret ≠ 0)
    (hf : fault = true ∨ ¬ (sig = 11 ∨ sig = 7 ∨ sig = 4) ∨ (Spec.table c k ops sig).h ≠ .dfl) :
    let effs := handler c dyn (run c (start k m) ops).1 sig ret
    Spec.observe fault effs = Spec.outcome (Spec.table c k ops sig) sig ∧
    (Eff.endProcess ∈ effs ↔ Spec.outcome (Spec.table c k ops sig) sig = .terminated) := by
  have inv := run_inited c hn k m ops hi
  have hv := (managed_iff_valid inv hm.1 hm.2.1).1 hm
  have hsim := (sim_run c hn h9 h19 k (start k m) (Or.inl rfl) (sim_start c hn k m) ops).1.1 sig hm
  rw [init_inited c _ hi] at hsim
  rw [← hsim] at hf ⊢
  generalize (run c (start k m) ops).1 = s at *
  simp only
  have he : handler c dyn s sig ret =
      (let e1 := match s.client sig with
        | some id => [Eff.client id]
        | none => []
       let sa := s.appl sig
        match sa.h with
        | .ign => e1
        | .dfl =>
          if noterm sig then e1
          else if stop sig then e1 ++ [.raiseStop]
          else
            e1 ++ [.endProcess] ++ (if dyn then [.endLibrary] else []) ++
              [.setDefault, .clearMask] ++
              (if noraise sig then [] else [.raiseSelf])
        | .fn id =>
          if sa.flags &&& SA_SIGINFO ≠ 0#32 then e1 ++ [.handlerInfo id]
          else e1 ++ [.handlerPlain id]) := by
    unfold handler
    simp only [Int.toNat_natCast, hv.1, hv.2, Bool.false_eq_true, or_self, if_false]
    rw [if_neg (by have := hm.1; have := hm.2.1; omega), if_neg (by
      rintro ⟨a, b⟩
      rcases hc with h | h
      · rw [h] at a; cases a
      · exact h b)]
    rfl
  rw [he]
  simp only
  obtain ⟨e1, he1⟩ : ∃ e1 : List Eff, e1 = (match s.client sig with
        | some id => [Eff.client id]
        | none => []) := ⟨_, rfl⟩
  have h1 : e1 = [] ∨ ∃ i, e1 = [.client i] := by
    rw [he1]; cases s.client sig with
    | none => exact Or.inl rfl
    | some i => exact Or.inr ⟨i, rfl⟩
  rw [← he1]
  unfold Spec.outcome
  cases hh : (s.appl sig).h with
  | ign => rcases h1 with rfl | ⟨i, rfl⟩ <;> simp [Spec.observe]
  | fn j =>
    simp only
    by_cases hfl : (s.appl sig).flags &&& SA_SIGINFO ≠ 0#32
    · rw [if_pos hfl]
      rcases h1 with rfl | ⟨i, rfl⟩ <;> simp [Spec.observe, hfl]
    · rw [if_neg hfl]
      rcases h1 with rfl | ⟨i, rfl⟩ <;> simp [Spec.observe, hfl]
  | dfl =>
    simp only [Spec.default]
    by_cases hnt : noterm sig = true
    · rw [if_pos hnt]
      have := (noterm_iff sig).1 hnt
      rw [if_pos this]
      rcases h1 with rfl | ⟨i, rfl⟩ <;> simp [Spec.observe]
    · rw [if_neg hnt]
      rw [noterm_iff] at hnt
      rw [if_neg hnt]
      by_cases hst : stop sig = true
      · rw [if_pos hst]
        have := (stop_iff sig).1 hst
        rw [if_pos (by omega)]
        rcases h1 with rfl | ⟨i, rfl⟩ <;> simp [Spec.observe]
      · rw [if_neg hst]
        rw [stop_iff] at hst
        have hs' : ¬ (sig = 19 ∨ sig = 20 ∨ sig = 21 ∨ sig = 22) := by have := hm.2.2.2.2; omega
        rw [if_neg hs']
        by_cases hnr : noraise sig = true
        · rw [if_pos hnr]
          have h4 := (noraise_iff sig).1 hnr
          have hft : fault = true := by
            rcases hf with h | h | h
            · exact h
            · exact absurd h4 h
            · exact absurd hh h
          rcases h1 with rfl | ⟨i, rfl⟩ <;> cases dyn <;> simp [Spec.observe, hft]
        · rw [if_neg hnr]
          rcases h1 with rfl | ⟨i, rfl⟩ <;> cases dyn <;> simp [Spec.observe]

/-- **C28**, order at the end of the process: the exit callbacks come before the library
callback, that before the default action is restored, and only then is the signal
raised again. -/
theorem C28_termination_order (c : Cfg) (dyn : Bool) (s : S) (sig ret : Int)
    (h : Eff.endProcess ∈ handler c dyn s sig ret) :
    ∃ pre, handler c dyn s sig ret = pre ++ [.endProcess] ++ (if dyn then [.endLibrary] else []) ++
      [.setDefault, .clearMask] ++ (if noraise sig.toNat then [] else [.raiseSelf]) ∧
      ∀ e ∈ pre, ∃ id, e = .client id := by
  unfold handler at h ⊢
  split
  · rename_i h'; rw [if_pos h'] at h; simp at h
  · rename_i h'; rw [if_neg h'] at h
    simp only at h ⊢
    split
    · rename_i h'; rw [if_pos h'] at h; simp at h
    · rename_i h'; rw [if_neg h'] at h
      have h1 : ∀ e ∈ (match s.client sig.toNat with
          | some id => [Eff.client id]
          | none => []), ∃ id, e = .client id := by
        cases s.client sig.toNat <;> simp
      split
      · rename_i h'; rw [if_pos h'] at h
        obtain ⟨_, hh⟩ := h1 _ h; cases hh
      · rename_i h'; rw [if_neg h'] at h
        clear h'
        cases hh : (s.appl sig.toNat).h with
        | ign => rw [hh] at h; obtain ⟨_, hh⟩ := h1 _ h; cases hh
        | fn j =>
          rw [hh] at h
          simp only at h
          split at h
          · simp at h; obtain ⟨_, hh⟩ := h1 _ h; cases hh
          · simp at h; obtain ⟨_, hh⟩ := h1 _ h; cases hh
        | dfl =>
          rw [hh] at h
          simp only at h ⊢
          split
          · rename_i h'; rw [if_pos h'] at h; obtain ⟨_, hh⟩ := h1 _ h; cases hh
          · rename_i h'; rw [if_neg h'] at h
            split
            · rename_i h'; rw [if_pos h'] at h
              simp at h; obtain ⟨_, hh⟩ := h1 _ h; cases hh
            · exact ⟨_, rfl, h1⟩

/-- **C28 fails** for a synchronous-fault signal that was *sent*: with the default action, a
plain kernel ends the process on `kill(pid, SIGSEGV)`; with the library the handler runs the
exit callbacks, restores the default action and returns, and the process goes on. -/
theorem C28_sent_fault_survived :
    let s := (run linux boot [.signal 0 11 .dfl]).1
    Spec.outcome (Spec.table linux (fun _ => zeroAct) [.signal 0 11 .dfl] 11) 11 = .terminated ∧
    Spec.observe false (handler linux true s 11 1) = .nothing ∧
    Eff.endProcess ∈ handler linux true s 11 1 := by
  decide +kernel

/-- Related: when the application ignores SIGSEGV (or the client declines and it is ignored), a
real fault just returns to the faulting instruction, again and again; a plain kernel would
end the process, since an ignored fault is fatal. -/
theorem C28_ignored_fault_not_fatal (c : Cfg) (dyn : Bool) (s : S) (ret : Int)
    (hn : 31 ≤ c.nsig) (hc : s.client 11 = none) (hv : s.invalid 11 = false)
    (hs : (s.appl 11).h = .ign) : handler c dyn s 11 ret = [] := by
  unfold handler
  rw [if_neg (by omega)]
  simp [hc, hv, hs, avoid, avoidList]

example : let s := (run linux boot [.client 15 (some 9) none, .signal 0 15 (.fn 4)]).1
    s.inited = true ∧ s.client 15 = some 9 ∧ handler linux true s 15 1 = [.client 9, .handlerPlain 4] ∧
    handler linux true s 15 0 = [.client 9] ∧
    handler linux true s 20 0 = [.raiseStop] ∧ handler linux true s 28 0 = [] ∧
    handler linux true s 11 0 = [.endProcess, .endLibrary, .setDefault, .clearMask] := by
  decide +kernel

/-! ## C29 -/

/-- **C29** (one-shot handlers, what holds): a handler installed without SA_RESETHAND is called
at every one of `n` deliveries in a row, as on a plain kernel.  Missing: SA_RESETHAND, see
`C29_resethand_runs_again`. -/
theorem C29_repeated_delivery_partial (c : Cfg) (hn : 31 ≤ c.nsig) (h9 : c.kernelOk 9 = true)
    (h19 : c.kernelOk 19 = true) (dyn : Bool) (k : Nat → Act) (m : Nat → Set) (ops : List Op)
    (sig : Nat) (hm : Spec.Managed c sig) (ret : Int) (id : Nat)
    (hi : (run c (start k m) ops).1.inited = true)
    (hc : (run c (start k m) ops).1.client sig = none)
    (hfn : (Spec.table c k ops sig).h = .fn id)
    (hfl : (Spec.table c k ops sig).flags &&& SA_RESETHAND = 0#32) (n : Nat) :
    List.replicate n (Spec.observe false (handler c dyn (run c (start k m) ops).1 sig ret)) =
      Spec.deliveries (Spec.table c k ops) sig n := by
  have h := (C28_dispatch_partial c hn h9 h19 dyn k m ops sig hm ret false hi (Or.inl hc)
    (Or.inr (Or.inr (by rw [hfn]; simp)))).1
  rw [h]
  generalize Spec.table c k ops = kk at hfn hfl
  have hd : Spec.deliver kk sig = (kk, Spec.outcome (kk sig) sig) := by
    unfold Spec.deliver; rw [hfn]; simp [hfl]
  induction n with
  | zero => rfl
  | succ n ih => rw [List.replicate_succ, Spec.deliveries, hd, ih]

/-- **C29 fails** for SA_RESETHAND: a plain kernel calls the handler once and then terminates;
with the library the handler runs every time. -/
theorem C29_resethand_runs_again :
    let ops := [Op.sigaction 0 10 (some ⟨.fn 5, SA_RESETHAND, emptySet⟩)]
    let s := (run linux boot ops).1
    Spec.deliveries (Spec.table linux (fun _ => zeroAct) ops) 10 2 = [.handler 5 false, .terminated] ∧
    (∀ n, List.replicate n (Spec.observe false (handler linux true s 10 1)) =
      List.replicate n (.handler 5 false)) := by
  refine ⟨by decide +kernel, fun n => ?_⟩
  have : Spec.observe false (handler linux true (run linux boot
    [Op.sigaction 0 10 (some ⟨.fn 5, SA_RESETHAND, emptySet⟩)]).1 10 1) = .handler 5 false := by
    decide +kernel
  rw [this]

/-- **C29** (exec, what holds): a signal the application does not ignore has the default
action in an exec'ed program, as on a plain kernel.  Missing: ignored signals, see
`C29_ignored_lost_at_exec`. -/
theorem C29_exec_partial (c : Cfg) (hn : 31 ≤ c.nsig) (k : Nat → Act) (m : Nat → Set)
    (ops : List Op) (sig : Nat) (hm : Spec.Managed c sig)
    (hh : (Spec.table c k ops sig).h ≠ .ign) :
    Spec.afterExec ((init c (run c (start k m) ops).1).kernel sig) =
      Spec.afterExec ⟨.app (Spec.table c k ops sig).h, 0#32, emptySet⟩ := by
  have h := C27_kernel_handlers c hn k m ops sig hm
  have h1 : Spec.afterExec ((init c (run c (start k m) ops).1).kernel sig) = .dfl := by
    unfold Spec.afterExec
    rcases h with ⟨h, _⟩ | ⟨_, _, h⟩ <;> rw [h]
  rw [h1]
  unfold Spec.afterExec
  cases hx : (Spec.table c k ops sig).h with
  | ign => exact absurd hx hh
  | _ => rfl

/-- **C29 fails** for ignored signals at exec, for every managed signal and every history: the
new program always gets the default action, although the application ignores the signal
(think of `nohup`). -/
theorem C29_ignored_lost_at_exec (c : Cfg) (hn : 31 ≤ c.nsig) (k : Nat → Act) (m : Nat → Set)
    (ops : List Op) (sig : Nat) (hm : Spec.Managed c sig) :
    Spec.afterExec ((init c (run c (start k m) ops).1).kernel sig) = .dfl := by
  have h := C27_kernel_handlers c hn k m ops sig hm
  unfold Spec.afterExec
  rcases h with ⟨h, _⟩ | ⟨_, _, h⟩ <;> rw [h]

/-- SIGHUP ignored at program start is reported as ignored, but default in a child. -/
example :
    let k : Nat → Act := fun s => if s = 1 then ⟨.ign, 0#32, emptySet⟩ else zeroAct
    (Spec.table linux k [.newThread 0 1] 1).h = .ign ∧ Spec.Managed linux 1 ∧
    Spec.afterExec ((init linux (run linux (start k fun _ => emptySet) [.newThread 0 1]).1).kernel 1) = .dfl := by
  decide +kernel

/-! ## C30 -/

/-- **C30**, bounds: building the candidate table never writes outside it, for every
realtime range, client set, environment and configuration. -/
theorem C30_table_in_bounds (c : Cfg) (hn : 31 ≤ c.nsig) (keepOpen : Nat → Bool) :
    (buildTable c keepOpen).isSome = true ∧ (choose c keepOpen).isSome = true := by
  obtain ⟨t, h, _⟩ := buildTable_spec c keepOpen hn
  obtain ⟨s, h', _⟩ := choose_spec c keepOpen hn
  rw [h, h']; exact ⟨rfl, rfl⟩

/-- **C30** (what holds).  The chosen signal is a signal number, not SIGKILL, SIGSTOP, SIGTSTP,
SIGTTIN or SIGTTOU; unless the environment or the configuration names an acceptable
number, it is a candidate that the client does not keep open, or SIGWINCH when no usable
candidate is left.  Missing: that the number is one the C library accepts, see
`C30_invalid_from_environment`. -/
theorem C30_choice_partial (c : Cfg) (hn : 31 ≤ c.nsig) (keepOpen : Nat → Bool) (s : Nat)
    (h : choose c keepOpen = some s) :
    1 ≤ s ∧ s < c.nsig ∧ s ∉ [9, 19, 20, 21, 22] ∧
    (c.env = some (s : Int) ∨ c.config = s ∨
      (Spec.Candidate c s ∧ keepOpen s = false) ∨
      (s = 28 ∧ ∀ x, Spec.Candidate c x → x ∉ [9, 19, 20, 21, 22] → keepOpen x = true)) := by
  obtain ⟨h1, h2, h3, h4⟩ := choose_range c keepOpen hn s h
  obtain ⟨s', g, g2, _⟩ := choose_spec c keepOpen hn
  rw [h] at g; cases g
  have e1 : ¬ (s = 9 ∨ s = 19) := by rw [← avoid_iff, h3]; simp
  have e2 : ¬ (s = 20 ∨ s = 21 ∨ s = 22) := by rw [← stop_iff, h4]; simp
  refine ⟨h1, h2, by simp; omega, ?_⟩
  rcases g2 with ⟨e, he, ha, hs⟩ | ⟨ha, hs⟩ | g2 | ⟨g2, g3⟩
  · left; rw [he]; rw [acceptable_iff] at ha
    have : e = (s : Int) := by omega
    rw [this]
  · right; left; rw [acceptable_iff] at ha; omega
  · right; right; left; exact ⟨g2.1, g2.2.2.2⟩
  · right; right; right
    refine ⟨g2, fun x hx hn => ?_⟩
    cases hk : keepOpen x with
    | true => rfl
    | false =>
      exfalso
      simp only [List.mem_cons, List.not_mem_nil, or_false, not_or] at hn
      refine g3 x ⟨hx, ?_, ?_, hk⟩
      · cases ha : avoid x with
        | false => rfl
        | true => have := (avoid_iff x).1 ha; omega
      · cases ha : stop x with
        | false => rfl
        | true => have := (stop_iff x).1 ha; omega

/-- **C30**, priority: an acceptable number in the environment always wins, then an
acceptable configured one; an unacceptable one is passed over. -/
theorem C30_priority (c : Cfg) (hn : 31 ≤ c.nsig) (keepOpen : Nat → Bool) (e : Nat)
    (he : 1 ≤ e ∧ e < c.nsig ∧ e ∉ [9, 19, 20, 21, 22]) :
    (c.env = some (e : Int) → choose c keepOpen = some e) ∧
    (c.env = none → c.config = e → choose c keepOpen = some e) := by
  have ha : acceptable c e = true := by
    rw [acceptable_iff]
    simp only [List.mem_cons, List.not_mem_nil, or_false, not_or] at he
    refine ⟨by omega, by omega, by omega, ?_, ?_⟩
    · cases ha : avoid (e : Int).toNat with
      | false => rfl
      | true => have := (avoid_iff _).1 ha; omega
    · cases ha : stop (e : Int).toNat with
      | false => rfl
      | true => have := (stop_iff _).1 ha; omega
  obtain ⟨s, h1, _, h3, h4, _⟩ := choose_spec c keepOpen hn
  constructor
  · intro h; rw [h1, h3 e h ha]; rfl
  · intro h hc; rw [h1, h4 (by rw [h]; simp) (by rw [hc]; exact ha), hc]; rfl

/-- **C30**, validity (what holds): when the environment and the configuration name no
unusable number and the candidates are accepted by the C library, the chosen signal is accepted, so
installing the shootdown handler succeeds. -/
theorem C30_valid_partial (c : Cfg) (hn : 31 ≤ c.nsig) (k : Nat → Act) (m : Nat → Set)
    (he : ∀ e, c.env = some (e : Int) → c.kernelOk e.toNat = true)
    (hc : c.kernelOk c.config.toNat = true ∨ c.config ≤ 0 ∨ c.nsig ≤ c.config)
    (hcand : ∀ x, Spec.Candidate c x → c.kernelOk x = true) (h28 : c.kernelOk 28 = true)
    (ops : List Op) :
    (installShootdown c (run c (start k m) ops).1).isSome = true := by
  have ok := run_ok c hn (start k m) (Or.inl rfl) ops
  have inv := init_inv c hn _ ok
  obtain ⟨hsh, _⟩ := keep_exact c hn (start k m) (Or.inl rfl) ops
  obtain ⟨_, _, _, _, ⟨sh, hch, hs0⟩, _⟩ := init_spec c hn (start k m) rfl
  rw [hs0] at hsh
  unfold installShootdown
  simp only
  rw [realSigaction_iff, hsh]
  simp only [Int.toNat_natCast]
  obtain ⟨g1, g2, g3, g4⟩ := C30_choice_partial c hn _ sh hch
  have hok : c.kernelOk sh = true := by
    rcases g4 with h | h | h | h
    · have := he sh h; simpa using this
    · rcases hc with h' | h' | h'
      · rw [h] at h'; simpa using h'
      · omega
      · omega
    · exact hcand sh h.1
    · rw [h.1]; exact h28
  rw [if_pos]
  · rfl
  · simp only [List.mem_cons, List.not_mem_nil, or_false, not_or] at g3
    exact ⟨g1, g2, hok, g3.1, g3.2.1⟩

/-- **C30 fails** when the environment names a number reserved by the C library: 32 passes
every test (the "invalid" marks are set only later), and at exit the installation of
the shootdown handler fails, which ends the process with an error. -/
theorem C30_invalid_from_environment :
    let c := { linux with env := some 32 }
    choose c (openFlags c c.openList) = some 32 ∧ c.kernelOk 32 = false ∧
      installShootdown c boot = none := by
  refine ⟨by decide +kernel, by decide, ?_⟩
  have : (installShootdown { linux with env := some 32 } boot).isNone = true := by decide +kernel
  simpa using this

example : choose linux (openFlags linux linux.openList) = some 42 ∧
    choose { linux with env := some 9, config := 50 } (fun _ => false) = some 50 ∧
    choose linux (fun s => decide (34 ≤ s)) = some 12 ∧
    choose linux (fun _ => true) = some 28 := by decide +kernel

example : (∀ x, Spec.Candidate linux x → linux.kernelOk x = true) ∧ linux.kernelOk 28 = true := by
  refine ⟨?_, by decide⟩
  intro x hx
  have h : 1 ≤ x ∧ x < 65 ∧ x ≠ 32 ∧ x ≠ 33 := by
    unfold Spec.Candidate linux at hx; simp only at hx; omega
  simp [linux, h]

/-! ## C31 -/

theorem helper_spec (shoot : Int) (set : Set) (fini : Bool) (w : Wake) :
    (Spec.ForApp shoot set w → sigwaitHelper shoot set fini w = (false, fini, false)) ∧
    (¬ Spec.ForApp shoot set w → fini = false ∨ ¬ Spec.IsShootdown shoot w ∨ w.ret < 0 →
      sigwaitHelper shoot set fini w =
        if 0 ≤ w.ret ∧ Spec.IsShootdown shoot w then (true, true, true) else (true, fini, false)) := by
  unfold Spec.ForApp sigwaitHelper
  constructor
  · rintro (⟨a, b⟩ | ⟨a, b, d, e⟩)
    · rw [if_pos a]
      have : (w.errno == EINTR) = false := by simp [EINTR, b]
      rw [this]
    · rw [if_neg (by omega), if_neg (fun h => e ⟨h.1, h.2.1, h.2.2.1⟩)]
      simp [b, d]
  · intro h hf
    by_cases hneg : w.ret < 0
    · rw [if_pos hneg, if_neg (by omega)]
      have : w.errno = 4 := by
        by_cases he : w.errno = 4
        · exact he
        · exact absurd (Or.inl ⟨hneg, he⟩) h
      simp [this, EINTR]
    · rw [if_neg hneg]
      have hpos : 0 ≤ w.ret := by omega
      by_cases hsd : Spec.IsShootdown shoot w
      · have hfin : fini = false := by
          rcases hf with h | h | h
          · exact h
          · exact absurd hsd h
          · exact absurd h hneg
        rw [if_pos ⟨hsd.1, hsd.2.1, hsd.2.2, by simp [hfin]⟩, if_pos ⟨hpos, hsd⟩]
      · have hns : ¬ (w.ret = shoot ∧ w.cleanup = true ∧ w.tnReady = true ∧ ¬ fini = true) :=
          fun h => hsd ⟨h.1, h.2.1, h.2.2.1⟩
        have hns2 : ¬ (0 ≤ w.ret ∧ Spec.IsShootdown shoot w) := fun h => hsd h.2
        rw [if_neg hns, if_neg hns2]
        by_cases hct : w.clientTakes = true
        · rw [if_pos hct]
        · rw [if_neg hct]
          by_cases hset : set w.ret.toNat = true
          · exact absurd (Or.inr ⟨hpos, hset, by simpa using hct, hsd⟩) h
          · rw [if_pos hset]

theorem loop_noshoot (shoot : Int) (set : Set) (fini : Bool) (ws : List Wake)
    (h : ∀ w ∈ ws, Spec.IsShootdown shoot w → w.ret < 0) :
    (sigwaitLoop shoot set fini ws).1 = ws.find? (fun w => decide (Spec.ForApp shoot set w)) ∧
    (sigwaitLoop shoot set fini ws).2.1 = 0 := by
  induction ws with
  | nil => exact ⟨rfl, rfl⟩
  | cons w ws ih =>
    obtain ⟨h1, h2⟩ := helper_spec shoot set fini w
    simp only [sigwaitLoop, List.find?_cons]
    by_cases hfa : Spec.ForApp shoot set w
    · rw [h1 hfa]; simp [hfa]
    · have hs : ¬ Spec.IsShootdown shoot w ∨ w.ret < 0 := by
        by_cases hsd : Spec.IsShootdown shoot w
        · exact Or.inr (h w (by simp) hsd)
        · exact Or.inl hsd
      rw [h2 hfa (Or.inr hs), if_neg (by
        rintro ⟨a, b⟩
        rcases hs with h | h
        · exact h b
        · omega)]
      obtain ⟨i1, i2⟩ := ih (fun v hv => h v (by simp [hv]))
      simp [hfa, i1, i2]

/-- **C31** (what holds).  For every stream of returns of the real call that contains at most
one shootdown request (and none if the thread has already finished): the application gets
exactly the first wakeup that is meant for it; while there is none it keeps waiting; and
monitor_fini_thread runs at most once, and only on the shootdown request.  Missing:
further shootdown requests, see `C31_second_shootdown_leaks`. -/
theorem C31_sigwait_partial (shoot : Int) (hsh : 0 ≤ shoot) (set : Set) (ws pre post : List Wake) (w : Wake)
    (hws : ws = pre ++ w :: post)
    (hpre : ∀ v ∈ pre, ¬ Spec.IsShootdown shoot v) (hpost : ∀ v ∈ post, ¬ Spec.IsShootdown shoot v) :
    (sigwaitLoop shoot set false ws).1 = ws.find? (fun w => decide (Spec.ForApp shoot set w)) ∧
    (sigwaitLoop shoot set false ws).2.1 =
      (if Spec.IsShootdown shoot w ∧ ∀ v ∈ pre, ¬ Spec.ForApp shoot set v then 1 else 0) := by
  subst hws
  induction pre with
  | nil =>
    obtain ⟨h1, h2⟩ := helper_spec shoot set false w
    simp only [List.nil_append, sigwaitLoop, List.find?_cons, List.not_mem_nil, false_implies,
      implies_true, and_true]
    by_cases hfa : Spec.ForApp shoot set w
    · rw [h1 hfa]
      have hns : ¬ Spec.IsShootdown shoot w := by
        intro hs
        rcases hfa with h | h
        · have := hs.1; omega
        · exact h.2.2.2 hs
      simp [hfa, hns]
    · rw [h2 hfa (Or.inl rfl)]
      by_cases hs : Spec.IsShootdown shoot w
      · have : 0 ≤ w.ret := by rw [hs.1]; exact hsh
        obtain ⟨i1, i2⟩ := loop_noshoot shoot set true post (fun v hv h => absurd h (hpost v hv))
        simp [this, hs, hfa, i1, i2]
      · obtain ⟨i1, i2⟩ := loop_noshoot shoot set false post (fun v hv h => absurd h (hpost v hv))
        simp [hs, hfa, i1, i2]
  | cons v pre ih =>
    obtain ⟨h1, h2⟩ := helper_spec shoot set false v
    obtain ⟨i1, i2⟩ := ih (fun u hu => hpre u (by simp [hu]))
    simp only [List.cons_append, sigwaitLoop, List.find?_cons, List.mem_cons, forall_eq_or_imp]
    by_cases hfa : Spec.ForApp shoot set v
    · rw [h1 hfa]; simp [hfa]
    · rw [h2 hfa (Or.inl rfl), if_neg (fun h => hpre v (by simp) h.2)]
      simp [hfa, i1, i2]

/-- **C31**, for every stream without any assumption: what is returned is an error other than
an interruption, or a signal of the set that the client did not take; and the callback runs
at most once. -/
theorem C31_returned (shoot : Int) (set : Set) (fini : Bool) (ws : List Wake) :
    (∀ w, (sigwaitLoop shoot set fini ws).1 = some w → w ∈ ws ∧
      ((w.ret < 0 ∧ w.errno ≠ 4) ∨ (0 ≤ w.ret ∧ set w.ret.toNat = true ∧ w.clientTakes = false))) ∧
    (sigwaitLoop shoot set fini ws).2.1 ≤ (if fini then 0 else 1) := by
  induction ws generalizing fini with
  | nil =>
    refine ⟨?_, by simp [sigwaitLoop]⟩
    intro w h; cases h
  | cons v ws ih =>
    simp only [sigwaitLoop]
    by_cases hneg : v.ret < 0
    · have e : sigwaitHelper shoot set fini v = (v.errno == EINTR, fini, false) := by
        unfold sigwaitHelper; rw [if_pos hneg]
      rw [e]
      by_cases he : v.errno = 4
      · have : (v.errno == EINTR) = true := by simp [he, EINTR]
        rw [this]
        obtain ⟨i1, i2⟩ := ih fini
        refine ⟨fun w hw => ?_, by simpa using i2⟩
        obtain ⟨a, b⟩ := i1 w hw
        exact ⟨by simp [a], b⟩
      · have : (v.errno == EINTR) = false := by simp [he, EINTR]
        rw [this]
        refine ⟨fun w hw => ?_, by simp⟩
        cases hw
        exact ⟨by simp, Or.inl ⟨hneg, he⟩⟩
    · by_cases hs : v.ret = shoot ∧ v.cleanup = true ∧ v.tnReady = true ∧ ¬ fini = true
      · have e : sigwaitHelper shoot set fini v = (true, true, true) := by
          unfold sigwaitHelper; rw [if_neg hneg, if_pos hs]
        rw [e]
        obtain ⟨i1, i2⟩ := ih true
        refine ⟨fun w hw => ?_, ?_⟩
        · obtain ⟨a, b⟩ := i1 w hw
          exact ⟨by simp [a], b⟩
        · have : fini = false := by simpa using hs.2.2.2
          have hz : (sigwaitLoop shoot set true ws).2.1 = 0 := by simpa using i2
          show (sigwaitLoop shoot set true ws).2.1 + 1 ≤ _
          rw [hz, this]; decide
      · by_cases hct : v.clientTakes = true
        · have e : sigwaitHelper shoot set fini v = (true, fini, false) := by
            unfold sigwaitHelper; rw [if_neg hneg, if_neg hs, if_pos hct]
          rw [e]
          obtain ⟨i1, i2⟩ := ih fini
          refine ⟨fun w hw => ?_, by simpa using i2⟩
          obtain ⟨a, b⟩ := i1 w hw
          exact ⟨by simp [a], b⟩
        · by_cases hset : set v.ret.toNat = true
          · have e : sigwaitHelper shoot set fini v = (false, fini, false) := by
              unfold sigwaitHelper; rw [if_neg hneg, if_neg hs, if_neg hct, if_neg (by simp [hset])]
            rw [e]
            refine ⟨fun w hw => ?_, by simp⟩
            cases hw
            exact ⟨by simp, Or.inr ⟨by omega, hset, by simpa using hct⟩⟩
          · have e : sigwaitHelper shoot set fini v = (true, fini, false) := by
              unfold sigwaitHelper; rw [if_neg hneg, if_neg hs, if_neg hct, if_pos hset]
            rw [e]
            obtain ⟨i1, i2⟩ := ih fini
            refine ⟨fun w hw => ?_, by simpa using i2⟩
            obtain ⟨a, b⟩ := i1 w hw
            exact ⟨by simp [a], b⟩

/-- A thread waiting for every signal. -/
def shootWake : Wake :=
  { ret := 42, errno := 0, cleanup := true, tnReady := true, clientTakes := false, elapsed := 0 }

/-- **C31 fails** for a second shootdown request: realtime signals queue, and the exiting
thread sends again until it sees the thread's progress.  The first request is swallowed, the
second is handed to the application. -/
theorem C31_second_shootdown_leaks :
    (sigwaitLoop 42 (fun _ => true) false [shootWake, shootWake]).1 = some shootWake ∧
    Spec.IsShootdown 42 shootWake ∧ ¬ Spec.ForApp 42 (fun _ => true) shootWake := by
  decide +kernel

example : (sigwaitLoop 42 (fun s => s == 10 || s == 15) false
    [{ shootWake with ret := -1, errno := 4 }, { shootWake with ret := 15, clientTakes := true },
     shootWake, { shootWake with ret := 2 }, { shootWake with ret := 10 }]) =
    (some { shootWake with ret := 10 }, 1, 0) := by decide +kernel

/-! ## C47: sigtimedwait's timeout -/

/-- **C47** (what holds): if every single wait lasts at most `timeout`, the whole call lasts at
most `timeout` for each wakeup it consumes; in particular at most `timeout` when the
first wakeup is for the application.  Missing: the bound `timeout` for the whole call, see
`C47_timeout_exceeded`. -/
theorem C47_timeout_partial (shoot : Int) (set : Set) (fini : Bool) (ws : List Wake) (timeout : Nat)
    (h : ∀ w ∈ ws, w.elapsed ≤ timeout) :
    (sigwaitLoop shoot set fini ws).2.2 ≤ timeout * ws.length ∧
    (∀ w rest, ws = w :: rest → Spec.ForApp shoot set w →
      (sigwaitLoop shoot set fini ws).2.2 ≤ timeout) := by
  constructor
  · induction ws generalizing fini with
    | nil => simp [sigwaitLoop]
    | cons w ws ih =>
      have hw := h w (by simp)
      simp only [sigwaitLoop, List.length_cons]
      rw [Nat.mul_add, Nat.mul_one]
      split
      · simp only; exact Nat.le_trans hw (Nat.le_add_left _ _)
      · rename_i f _ _
        have := ih f (fun v hv => h v (by simp [hv]))
        generalize sigwaitLoop shoot set f ws = q at this ⊢
        obtain ⟨q1, q2, q3⟩ := q
        simp only at this ⊢; omega
  · intro w rest hws hfa
    subst hws
    simp only [sigwaitLoop]
    rw [(helper_spec shoot set fini w).1 hfa]
    exact h w (by simp)

/-- One interruption after one unit of time, and the timeout after one unit (EAGAIN = 11). -/
def intrWake : Wake := ⟨-1, 4, false, true, false, 1⟩
def againWake : Wake := ⟨-1, 11, false, true, false, 1⟩

/-- **C47 fails**: with a stream of interruptions, each arriving before the timeout of one unit
expires, the call takes longer than any bound before it reports the timeout. -/
theorem C47_timeout_exceeded (bound : Nat) :
    ∃ ws : List Wake, (∀ w ∈ ws, w.elapsed ≤ 1) ∧
      (sigwaitLoop 42 (fun _ => true) false ws).2.2 > bound ∧
      (sigwaitLoop 42 (fun _ => true) false ws).1 = some againWake := by
  refine ⟨List.replicate bound intrWake ++ [againWake], ?_, ?_⟩
  · intro w hw
    rcases List.mem_append.1 hw with h | h
    · rw [(List.mem_replicate.1 h).2]; decide
    · rw [List.mem_singleton.1 h]; decide
  · induction bound with
    | zero => decide +kernel
    | succ n ih =>
      rw [List.replicate_succ, List.cons_append]
      have e : sigwaitHelper 42 (fun _ => true) false intrWake = (true, false, false) := by
        decide +kernel
      simp only [sigwaitLoop, e]
      have he : intrWake.elapsed = 1 := rfl
      generalize sigwaitLoop 42 (fun _ => true) false (List.replicate n intrWake ++ [againWake]) = q
        at ih ⊢
      obtain ⟨q1, q2, q3⟩ := q
      simp only at ih ⊢
      exact ⟨by omega, ih.2⟩

/-! ## C48: the shootdown handler stays installed -/

/-- **C48** (what holds): once installed, the shootdown handler stays installed through every
history in which neither application nor client sets an action for that signal.  Missing:
the application setting one, see `C48_application_replaces`. -/
theorem C48_shootdown_stays_partial (c : Cfg) (hn : 31 ≤ c.nsig) (k : Nat → Act) (m : Nat → Set)
    (ops1 ops2 : List Op) (s0 : S)
    (h0 : installShootdown c (run c (start k m) ops1).1 = some s0)
    (hno : ∀ op ∈ ops2, match op with
      | .sigaction _ sig _ => sig ≠ s0.shoot
      | .signal _ sig _ => sig ≠ s0.shoot
      | .client sig _ _ => sig ≠ s0.shoot
      | _ => True) :
    ((run c s0 ops2).1.kernel s0.shoot.toNat).h = .shootdown := by
  have ok := run_ok c hn (start k m) (Or.inl rfl) ops1
  have inv0 : Inv c s0 ∧ (s0.kernel s0.shoot.toNat).h = .shootdown := by
    have inv := init_inv c hn _ ok
    unfold installShootdown at h0
    simp only at h0
    rw [realSigaction_iff] at h0
    split at h0
    · rename_i heq
      split at heq
      · cases heq; cases h0
        exact ⟨⟨inv.1, inv.2, inv.3, inv.4⟩, by simp⟩
      · cases heq
    · cases h0
  obtain ⟨inv, hk⟩ := inv0
  clear h0
  generalize hsh : s0.shoot = sh at hno hk ⊢
  have hpos : 0 < sh := by have := inv.shoot.1; omega
  induction ops2 generalizing s0 with
  | nil => exact hk
  | cons op ops ih =>
    simp only [run]
    have hop := hno op (by simp)
    have hstep : Inv c (step c s0 op).1 ∧ (step c s0 op).1.shoot = sh ∧
        ((step c s0 op).1.kernel sh.toNat).h = .shootdown := by
      have hi := init_inited c s0 inv.inited
      cases op with
      | sigaction t sig act =>
        refine ⟨applSigaction_inv c hn s0 (Or.inr inv) t sig act, ?_, ?_⟩
        · simp only [step]; rw [(applSigaction_fields c s0 t sig act).2.1, hi, hsh]
        · simp only [step]
          rcases applSigaction_kernel' c hn s0 (Or.inr inv) t sig act sh.toNat with e | ⟨e, _⟩
          · rw [e, hi]; exact hk
          · simp only at hop; omega
      | signal t sig hd =>
        simp only [step]
        rw [signal_fst]
        refine ⟨applSigaction_inv c hn s0 (Or.inr inv) t sig _, ?_, ?_⟩
        · rw [(applSigaction_fields c s0 t sig _).2.1, hi, hsh]
        · rcases applSigaction_kernel' c hn s0 (Or.inr inv) t sig (some ⟨hd, 0#32, emptySet⟩) sh.toNat with
            e | ⟨e, _⟩
          · rw [e, hi]; exact hk
          · simp only at hop; omega
      | client sig hd act =>
        refine ⟨clientSigaction_inv c hn s0 (Or.inr inv) sig hd act, ?_, ?_⟩
        · simp only [step]; rw [(clientSigaction_fields c s0 sig hd act).1, hi, hsh]
        · simp only [step]
          rcases clientSigaction_kernel c s0 sig hd act sh.toNat with e | ⟨e, _⟩
          · rw [e, hi]; exact hk
          · simp only at hop; omega
      | sigmask t how set =>
        refine ⟨sigmask_inv c hn s0 (Or.inr inv) t how set, ?_, ?_⟩
        · simp only [step]; rw [sigmask_fields, hi]; exact hsh
        · simp only [step]; rw [sigmask_fields, hi]; exact hk
      | newThread p ch => exact ⟨⟨inv.1, inv.2, inv.3, inv.4⟩, hsh, hk⟩
      | shootdown =>
        simp only [step, installShootdown]
        rw [realSigaction_iff, hi]
        by_cases hm : Spec.Managed c s0.shoot.toNat
        · rw [if_pos hm]
          refine ⟨⟨inv.1, inv.2, inv.3, inv.4⟩, hsh, ?_⟩
          simp [hsh]
        · rw [if_neg hm]; exact ⟨inv, hsh, hk⟩
    exact ih _ hstep.1 hstep.2.1 (fun o ho => hno o (by simp [ho])) hstep.2.2

/-- **C48 fails**: a thread that sets an action for the signal while another thread is waiting
in the exit procedure replaces the shootdown handler by the ordinary one, so later
requests end in the application's disposition (here: the default, process termination). -/
theorem C48_application_replaces :
    let s := (run linux boot [.shootdown, .signal 1 42 .dfl]).1
    s.shoot = 42 ∧ (s.kernel 42).h = .monitor ∧
      Spec.observe false (handler linux true s 42 1) = .terminated := by decide +kernel

example : ((run linux boot [.shootdown, .signal 1 15 .ign, .sigmask 0 2 (some fun _ => true)]).1.kernel
    42).h = .shootdown := by decide +kernel

/-! ## C49: effect of the flags the application passes -/

/-- **C49** (what holds): every flag other than SA_SIGINFO, SA_RESTART, SA_RESETHAND and
SA_ONSTACK is passed on to the kernel as the application gave it.  Missing: SA_RESTART and
SA_ONSTACK, see `C49_restart_and_stack_lost`. -/
theorem C49_flags_partial (c : Cfg) (hn : 31 ≤ c.nsig) (k : Nat → Act) (m : Nat → Set)
    (ops : List Op) (t : Nat) (sig : Nat) (hm : Spec.Managed c sig) (a : Act) (bit : BitVec 32)
    (h1 : bit &&& SA_SIGINFO = 0#32) (h2 : bit &&& SA_RESTART = 0#32)
    (h3 : bit &&& SA_RESETHAND = 0#32) (h4 : bit &&& SA_ONSTACK = 0#32) :
    let s := (run c (start k m) (ops ++ [.sigaction t sig (some a)])).1
    (s.kernel sig).flags &&& bit = a.flags &&& bit := by
  simp only
  rw [run_append]
  have ok := run_ok c hn (start k m) (Or.inl rfl) ops
  generalize (run c (start k m) ops).1 = s at ok
  simp only [run, step]
  rw [(applSigaction_kernel c hn s ok t sig hm a).1, upd_self]
  simp only [adjustSaflags, required, forbidden]
  apply BitVec.eq_of_getLsbD_eq
  intro i hi
  have g1 := congrArg (fun v => v.getLsbD i) h1
  have g2 := congrArg (fun v => v.getLsbD i) h2
  have g3 := congrArg (fun v => v.getLsbD i) h3
  have g4 := congrArg (fun v => v.getLsbD i) h4
  simp only [BitVec.getLsbD_and, BitVec.getLsbD_zero] at g1 g2 g3 g4
  simp only [BitVec.getLsbD_and, BitVec.getLsbD_or, BitVec.getLsbD_not, hi, decide_true,
    Bool.true_and]
  cases hb : bit.getLsbD i
  · simp
  · rw [hb] at g1 g2 g3 g4
    simp only [Bool.true_and] at g1 g2 g3 g4
    simp [g1, g2, g3, g4]

/-- **C49 fails**, for every managed signal after every history: the handler never interrupts a
system call (even if the application left out SA_RESTART to get EINTR, e.g. for a timeout with
alarm), and never runs on the alternate stack (even if the application asked for it to
survive a stack overflow). -/
theorem C49_restart_and_stack_lost (c : Cfg) (hn : 31 ≤ c.nsig) (k : Nat → Act) (m : Nat → Set)
    (ops : List Op) (t : Nat) (sig : Nat) (hm : Spec.Managed c sig) (a : Act) :
    let s := (run c (start k m) (ops ++ [.sigaction t sig (some a)])).1
    ¬ Spec.Interrupts (s.kernel sig).flags ∧ ¬ Spec.OnAltStack (s.kernel sig).flags := by
  simp only
  rw [run_append]
  have ok := run_ok c hn (start k m) (Or.inl rfl) ops
  generalize (run c (start k m) ops).1 = s at ok
  simp only [run, step]
  rw [(applSigaction_kernel c hn s ok t sig hm a).1, upd_self]
  obtain ⟨_, f2, _, f4⟩ := flagsOk_adjust a.flags
  exact ⟨fun h => f2 h, fun h => h f4⟩

example : Spec.Managed linux 14 ∧ Spec.Interrupts (zeroAct.flags) ∧
    (0x40000000#32 &&& SA_SIGINFO = 0#32 ∧ 0x40000000#32 &&& SA_RESTART = 0#32 ∧
     0x40000000#32 &&& SA_RESETHAND = 0#32 ∧ 0x40000000#32 &&& SA_ONSTACK = 0#32) := by
  unfold Spec.Interrupts; decide

/-! ## C50: ignoring SIGCHLD -/

/-- **C50** (what holds): SA_NOCLDWAIT given by the application reaches the kernel, so that
children are reaped.  Missing: SIG_IGN for SIGCHLD, see `C50_zombies`. -/
theorem C50_nocldwait_partial (c : Cfg) (hn : 31 ≤ c.nsig) (k : Nat → Act) (m : Nat → Set)
    (ops : List Op) (t : Nat) (hm : Spec.Managed c 17) (a : Act) (ha : a.flags &&& 0x2#32 ≠ 0#32) :
    Spec.Reaps ((run c (start k m) (ops ++ [.sigaction t (17 : Nat) (some a)])).1.kernel 17) := by
  right
  have := C49_flags_partial c hn k m ops t 17 hm a 0x2#32 (by decide) (by decide) (by decide) (by decide)
  simp only at this
  rw [this]; exact ha

/-- **C50 fails**: an application that sets SIGCHLD to SIG_IGN, without further flags, does not
get its children reaped; on a plain kernel it does. -/
theorem C50_zombies (c : Cfg) (hn : 31 ≤ c.nsig) (k : Nat → Act) (m : Nat → Set)
    (ops : List Op) (t : Nat) (hm : Spec.Managed c 17) (mask : Set) :
    ¬ Spec.Reaps ((run c (start k m) (ops ++ [.sigaction t (17 : Nat) (some ⟨.ign, 0#32, mask⟩)])).1.kernel 17) ∧
    Spec.Reaps ⟨.app .ign, 0#32, mask⟩ := by
  refine ⟨?_, Or.inl rfl⟩
  rw [run_append]
  have ok := run_ok c hn (start k m) (Or.inl rfl) ops
  generalize (run c (start k m) ops).1 = s at ok
  simp only [run, step]
  rw [(applSigaction_kernel c hn s ok t 17 hm ⟨.ign, 0#32, mask⟩).1, upd_self]
  rintro (h | h)
  · cases h
  · exact h (show adjustSaflags 0#32 &&& 0x2#32 = 0#32 by decide)

example : Spec.Managed linux 17 := by decide

end Libmonitor.Sig
