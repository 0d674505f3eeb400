import Verif.Proc.Frozen
import Verif.Proc.SpecBroad
/-!
# monitor_broadcast_signal: the list lock, the records on the list, the signals sent
-/

namespace Libmonitor.Proc

/-- Frames that hold the list lock. -/
def tokLock : Frame → Nat
  | .sd2 | .ul1 _ | .bt2 _ | .mk1 .. | .br1 .. | .brKill .. | .br2 _ => 1
  | _ => 0

/-- At most one frame holds the lock, none if it is free. -/
def LockI (s : S) : Prop :=
  ∃ w, (∀ t, t ≠ w → toks tokLock (s.th t) = 0) ∧ toks tokLock (s.th w) ≤ s.g.lock.toNat

theorem lockI_set {s : S} (hi : LockI s) {t : Tid} {l : List Frame} {g' : G}
    (h : toks tokLock l + s.g.lock.toNat ≤ toks tokLock (s.th t) + g'.lock.toNat) :
    LockI { g := g', th := setTh s.th t l } := by
  obtain ⟨w, h1, h2⟩ := hi
  by_cases e : t = w
  · subst e
    refine ⟨t, fun u hu => ?_, ?_⟩
    · show toks tokLock (setTh s.th t l u) = 0
      rw [setTh_ne _ _ hu]; exact h1 u hu
    · show toks tokLock (setTh s.th t l t) ≤ g'.lock.toNat
      rw [setTh_self]; omega
  · rw [h1 t e] at h
    cases hb : s.g.lock with
    | true =>
      have := Bool.toNat_le g'.lock
      rw [hb] at h h2
      simp only [Bool.toNat_true] at h h2
      refine ⟨w, fun u hu => ?_, ?_⟩
      · show toks tokLock (setTh s.th t l u) = 0
        by_cases e2 : u = t
        · subst e2; rw [setTh_self]; omega
        · rw [setTh_ne _ _ e2]; exact h1 u hu
      · show toks tokLock (setTh s.th t l w) ≤ g'.lock.toNat
        rw [setTh_ne _ _ (Ne.symm e)]; omega
    | false =>
      rw [hb] at h h2
      simp only [Bool.toNat_false] at h h2
      refine ⟨t, fun u hu => ?_, ?_⟩
      · show toks tokLock (setTh s.th t l u) = 0
        rw [setTh_ne _ _ hu]
        by_cases e2 : u = w
        · subst e2; omega
        · exact h1 u e2
      · show toks tokLock (setTh s.th t l t) ≤ g'.lock.toNat
        rw [setTh_self]; omega

theorem lock_go {g g' : G} {t : Tid} {ok : Bool} {v : Nat} {f : Frame} {nx : Next}
    {sp : Option Frame} (h : fstep g t ok v f = some (g', nx, sp)) :
    nx.toks tokLock f + g.lock.toNat ≤ tokLock f + g'.lock.toNat ∧
      ∀ f0, sp = some f0 → tokLock f0 = 0 := by
  cases f <;> fstep_cases h <;>
    first
    | (refine ⟨?_, fun f0 e => by cases e <;> rfl⟩
       simp [listInit, G.emit, G.upd, Next.toks, toks, tokLock]; done)
    | (refine ⟨?_, fun f0 e => by cases e <;> rfl⟩
       simp_all [listInit, G.emit, G.upd, Next.toks, toks, tokLock]; done)
    | (refine ⟨?_, fun f0 e => by cases e <;> rfl⟩
       simp [listInit, G.emit, G.upd, Next.toks, toks, tokLock]
       exact Bool.toNat_le _)
    | (refine ⟨?_, fun f0 e => by cases e <;> rfl⟩
       simp [G.emit, Next.toks, toks, tokLock]; done)
    | (refine ⟨?_, fun f0 e => by cases e <;> rfl⟩
       split <;> simp [listInit, G.emit, G.upd, Next.toks, toks, tokLock]; done)

theorem lock_inv {A : S → Lbl → Prop} {s : S} (hs : ReachA A s) : LockI s := by
  have hunw : ∀ l, toks tokLock (unwound l) = 0 := by
    intro l
    rcases unwound_cases l with h | ⟨_, n, _, _, h⟩ <;> rw [h] <;> simp [toks_cons, toks_nil, tokLock]
  induction hs with
  | init =>
    refine ⟨0, fun t ht => ?_, ?_⟩
    · show toks tokLock (if t = 0 then [Frame.start] else []) = 0
      rw [if_neg ht]; rfl
    · show toks tokLock [Frame.start] ≤ _
      simp [toks_cons, toks_nil, tokLock]
  | @next s s' l hr hA hn ih =>
    have hm := move_of_next hn
    cases hm with
    | @go t f rest ok v r hd ht hf =>
      obtain ⟨g', nx, sp⟩ := r
      obtain ⟨hgo, hsp⟩ := lock_go hf
      rcases fstep_spawn hf with ⟨rfl, e⟩ | ⟨f0, l, rfl, e, rfl⟩
      · cases nx with
        | go l =>
          refine lockI_set ih ?_
          rw [toks_append, ht, toks_cons]
          simp only [Next.toks] at hgo; omega
        | unwind =>
          refine lockI_set ih ?_
          rw [hunw, ht, toks_cons]
          simp only [Next.toks] at hgo; omega
        | die =>
          have := lockI_set (g' := { g' with dead := true }) (l := f :: rest) (t := t) ih ?_
          · rw [setTh_id ht] at this; exact this
          · rw [ht]
            simp only [Next.toks] at hgo
            show _ ≤ _ + g'.lock.toNat
            omega
      · have hfr := fresh_inv hr s.g.nextTid (Nat.le_refl _)
        have ih2 : LockI { s with th := setTh s.th s.g.nextTid [f0] } := by
          refine lockI_set ih ?_
          rw [hfr, toks_cons, hsp f0 rfl]; simp
        have hne : t ≠ s.g.nextTid := by
          intro e'; rw [e', hfr] at ht; cases ht
        refine lockI_set (s := { s with th := setTh s.th s.g.nextTid [f0] }) ih2 ?_
        show _ ≤ toks tokLock (setTh s.th s.g.nextTid [f0] t) + _
        rw [setTh_ne _ _ hne, toks_append, ht, toks_cons]
        simp only [Next.toks] at hgo
        show _ + s.g.lock.toNat ≤ _; omega
    | @call t f rest a hd ht hf =>
      refine lockI_set ih ?_
      rw [toks_append, ht, toks_zero (l := a.frames) ?_]
      · show _ + s.g.lock.toNat ≤ _; omega
      · intro f hf
        have := api_pushable hf
        cases f <;> first | rfl | (simp [Frame.pushable] at this; done)
    | @unwind t f rest hd ht hf => exact lockI_set ih (by rw [hunw]; omega)
    | @deliver t f rest hd ht hon hh =>
      refine lockI_set ih ?_
      rw [ht, toks_cons ..]; simp [tokLock]
    | @interrupt t f rest hd ht =>
      refine lockI_set ih ?_
      rw [ht, toks_cons ..]; simp [tokLock]
    | @fork t c d rest hd ht =>
      obtain ⟨w, h1, h2⟩ := ih
      refine ⟨t, fun u hu => ?_, ?_⟩
      · show toks tokLock (setTh (fun _ => []) t _ u) = 0
        rw [setTh_ne _ _ hu]; rfl
      · show toks tokLock (setTh (fun _ => []) t _ t) ≤ s.g.lock.toNat
        rw [setTh_self, toks_cons, toks_cons]
        have : toks tokLock rest = toks tokLock (s.th t) := by rw [ht, toks_cons]; simp [tokLock]
        by_cases e : t = w
        · subst e; simp only [tokLock]; omega
        · have := h1 t e; simp only [tokLock]; omega
    | @realFork t rest hd ht =>
      obtain ⟨w, h1, h2⟩ := ih
      refine ⟨t, fun u hu => ?_, ?_⟩
      · show toks tokLock (setTh (fun _ => []) t _ u) = 0
        rw [setTh_ne _ _ hu]; rfl
      · show toks tokLock (setTh (fun _ => []) t _ t) ≤ s.g.lock.toNat
        rw [setTh_self, toks_cons]
        have : toks tokLock rest = toks tokLock (s.th t) := by rw [ht, toks_cons]; simp [tokLock]
        by_cases e : t = w
        · subst e; simp only [tokLock]; omega
        · have := h1 t e; simp only [tokLock]; omega

/-- A frame that holds the lock: it is taken, and no other frame holds it. -/
theorem lock_excl {A : S → Lbl → Prop} {s : S} (hs : ReachA A s) {u : Tid} {f : Frame}
    (hf : f ∈ s.th u) (h : tokLock f = 1) : s.g.lock = true ∧
      (∀ w f', f' ∈ s.th w → w ≠ u → tokLock f' = 0) ∧
      ∀ f' rest, s.th u = f' :: rest → f ∈ rest → tokLock f' = 0 := by
  obtain ⟨w, h1, h2⟩ := lock_inv hs
  have hm := toks_mem (tok := tokLock) hf
  have hw : u = w := by
    by_cases e : u = w
    · exact e
    · rw [h1 u e] at hm; omega
  subst hw
  refine ⟨?_, ?_, ?_⟩
  · cases hb : s.g.lock with
    | true => rfl
    | false => rw [hb] at h2; simp only [Bool.toNat_false] at h2; omega
  · intro w f' hf' hne
    have := toks_mem (tok := tokLock) hf'
    rw [h1 w hne] at this; omega
  · intro f' rest e hr
    have h3 := toks_mem (tok := tokLock) hr
    rw [e, toks_cons] at h2
    have := Bool.toNat_le s.g.lock
    omega

end Libmonitor.Proc
