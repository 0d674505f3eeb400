import Verif.Proc.Release2
/-!
# C58: a thread that waits can be released by the others

`C58_no_deadlock_partial` says that some thread can make one step.  Here: letting the other
threads go on (callbacks return, external calls succeed, timeouts are over), the thread that
waits comes to a state in which it can go on itself, unless the process ends before.
-/

namespace Libmonitor.Proc

/-- C58, in orderly executions of a process that has begun (see `settled`): from every state in
which thread `t` has to wait there is an execution of the other threads, without new calls and
signals, after which the process is gone or `t` need not wait any more.  Missing: as in
`C58_someone_partial`; and a scheduler that lets the others go on is assumed. -/
theorem C58_released_partial {s : S} (hs : ReachA Orderly s) (hd : s.g.dead = false)
    (hb : settled s) {t : Tid} (hw : blocked s t) :
    ∃ s', Run (· ≠ t) s s' ∧ s'.th t = s.th t ∧ (s'.g.dead = true ∨ ¬ blocked s' t) := by
  have hg : Good s := ⟨hs, hb⟩
  have hl : s.th t ≠ [] := by
    intro e
    rcases hw with ⟨⟨f, h, _⟩, _⟩ | ⟨⟨f, h, _⟩, _⟩ | ⟨⟨f, h, _⟩, _⟩ <;> rw [e] at h <;> cases h
  obtain ⟨f, rest, ht⟩ := List.exists_cons_of_ne_nil hl
  have topf : ∀ {p : Frame → Bool}, top s t p → p f = true := by
    rintro p ⟨x, hx, hp⟩
    rw [ht] at hx; injection hx with hx; subst hx; exact hp
  have keep : ∀ {s'}, Run (· ≠ t) s s' → s'.th t = s.th t := fun hr =>
    run_keep hr hg (fun h => h rfl) hl
  rcases hw with ⟨h1, h2⟩ | ⟨h1, h2⟩ | ⟨h1, n, h2, h3⟩
  · obtain ⟨w, s', hrk, hr, h'⟩ := release_lock hg hd h2
    have hf := topf h1
    have hne : w ≠ t := by
      intro e; subst e
      rw [rank_cons ht] at hrk; simp [Frame.rank, hf] at hrk
    have hr' : Run (· ≠ t) s s' := hr.mono (fun x hx => by rw [hx]; exact hne)
    refine ⟨s', hr', keep hr', h'.imp id (fun h' => ?_)⟩
    refine not_blocked_of ((keep hr').trans ht) (fun _ => h') (fun e => ?_) (fun e => ?_) <;>
      (cases f <;> simp [Frame.wantsLock, Frame.isEpWait, Frame.polls] at hf e)
  · have hf := topf h1
    have hm : f ∈ s.th t := by rw [ht]; exact List.mem_cons_self
    have hc := (late_inv hs).2 t f hm (by
      cases f <;> first | rfl | (simp [Frame.isEpWait] at hf; done))
    have hS : Still (· = t) 2 s := ⟨hg, fun x hx => by
      rw [hx, rank_cons ht, rank_epWait hf]; exact Nat.le_refl _⟩
    obtain ⟨s', hr, h'⟩ := release_exit hS hd hc h2
    refine ⟨s', hr, keep hr, h'.imp id (fun h' => ?_)⟩
    refine not_blocked_of ((keep hr).trans ht) (fun e => ?_) (fun _ => h') (fun e => ?_) <;>
      (cases f <;> simp [Frame.wantsLock, Frame.isEpWait, Frame.polls] at hf e)
  · have hf := topf h1
    have hS : Still (· = t) 1 s := ⟨hg, fun x hx => by
      rw [hx, rank_cons ht, rank_polls hf]; exact Nat.le_refl _⟩
    obtain ⟨s', hr, h'⟩ := release_fini hS hd
    refine ⟨s', hr, keep hr, h'.imp id (fun h' => ?_)⟩
    have hc := calm_of (good_run hr hg) h'
    refine not_blocked_of ((keep hr).trans ht) (fun e => ?_) (fun e => ?_) (fun _ n _ => ?_)
    · cases f <;> simp [Frame.wantsLock, Frame.polls] at hf e
    · cases f <;> simp [Frame.isEpWait, Frame.polls] at hf e
    · cases hx : awaited s'.g t n with
      | false => rfl
      | true =>
        simp only [awaited, Bool.and_eq_true, Bool.not_eq_true'] at hx
        rw [hc n hx.1.2] at hx; cases hx.2

/-- A chain of three waiting threads (`chain` of PropsWait): every one of them can be released. -/
example : ∃ s, ReachA Orderly s ∧ s.g.dead = false ∧ settled s ∧ blocked s 0 ∧ blocked s 1 ∧
    blocked s 2 := by
  obtain ⟨s, hr, hp⟩ := exists_of_runA (A := Orderly) (ls := chain)
    (p := fun s => !s.g.dead && (s.th 0).head?.any Frame.isEpWait && !s.g.finiProcDone &&
      (s.th 1).head?.any Frame.polls &&
      s.g.list.contains (.slot 0 1) && awaited s.g 1 (.slot 0 1) &&
      (s.th 2).head?.any Frame.wantsLock && s.g.lock && s.g.initCalled &&
      decide (∀ u, u < s.g.nextTid → (s.th u).any Frame.begins = false))
    (by decide +kernel)
  simp only [Bool.and_eq_true, Bool.not_eq_true', List.contains_iff_mem, decide_eq_true_eq] at hp
  obtain ⟨⟨⟨⟨⟨⟨⟨⟨⟨h1, h2⟩, h3⟩, h4⟩, h5⟩, h6⟩, h7⟩, h8⟩, h9⟩, h10⟩ := hp
  refine ⟨s, hr, h1, ⟨h9, fun u f hf => ?_⟩, Or.inr (Or.inl ⟨top_of h2, h3⟩),
    Or.inr (Or.inr ⟨top_of h4, _, h5, h6⟩), Or.inl ⟨top_of h7, h8⟩⟩
  by_cases hu : u < s.g.nextTid
  · simpa using List.any_eq_false.1 (h10 u hu) f hf
  · rw [fresh_inv hr u (by omega)] at hf; cases hf

end Libmonitor.Proc
