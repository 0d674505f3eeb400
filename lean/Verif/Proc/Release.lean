import Verif.Proc.SpecRelease
import Verif.Proc.PropsWait
/-!
# Threads that wait are released: lemmas

Three levels: the holder of the lock waits for nobody; a thread in fini-thread waits for the lock at
most; a thread that delivers the exit callbacks waits for the lock and for fini-thread.
-/

namespace Libmonitor.Proc

theorem Run.trans {T : Tid → Prop} {s s1 s2 : S} (h1 : Run T s s1) (h2 : Run T s1 s2) :
    Run T s s2 := by
  induction h1 with
  | refl => exact h2
  | step hu hn _ ih => exact .step hu hn (ih h2)

theorem Run.mono {T T' : Tid → Prop} (h : ∀ u, T u → T' u) {s s' : S} (hr : Run T s s') :
    Run T' s s' := by
  induction hr with
  | refl => exact .refl _
  | step hu hn _ ih => exact .step (h _ hu) hn ih

theorem Run.one {T : Tid → Prop} {s s1 : S} {u : Tid} (hu : T u)
    (hn : next s (.step u (.go true 0)) = some s1) : Run T s s1 := .step hu hn (.refl _)

structure Good (s : S) : Prop where
  reach : ReachA Orderly s
  settled : settled s

theorem begins_go {g g' : G} {t : Tid} {f : Frame} {nx : Next} {sp : Option Frame}
    (h : fstep g t true 0 f = some (g', nx, sp)) (hi : g.initCalled = true)
    (hf : f.begins = false) : g'.initCalled = true ∧ (∀ l, nx = .go l → ∀ a ∈ l, a.begins = false) ∧
      ∀ a, sp = some a → a.begins = false := by
  cases f <;> first | (simp [Frame.begins] at hf; done) | skip
  all_goals (fstep_cases h <;> first
    | contradiction
    | (refine ⟨hi, fun l e => ?_, fun a e => by first | (cases e; done) | (injection e with e; subst e; rfl)⟩
       first
       | (cases e; done)
       | (injection e with e
          subst e
          simp only [List.forall_mem_cons, List.not_mem_nil, false_implies, implies_true, and_true]
          first | trivial | rfl | exact ⟨rfl, rfl⟩ | (split <;> simp [Frame.begins]; done)))
    | (refine ⟨by first | exact hi | rfl, fun l e => ?_, fun a e => by
         first | (cases e; done) | (injection e with e; subst e; rfl)⟩
       injection e with e
       subst e
       intro b hb
       first
       | cases hb; done
       | (cases hb with | head => rfl | tail _ hb => cases hb))
    | (simp_all [Frame.begins]; done))

/-- The stacks after a step of `u`. -/
theorem step_cases {s s1 : S} {u : Tid} (hn : next s (.step u (.go true 0)) = some s1) :
    s.g.dead = false ∧ ∃ f rest g' nx sp, s.th u = f :: rest ∧
      fstep s.g u true 0 f = some (g', nx, sp) ∧ s1 = applyRes s u rest (g', nx, sp) := by
  have hm := move_of_next hn
  cases hm with
  | @go _ f rest _ _ r hd ht hf =>
    obtain ⟨g', nx, sp⟩ := r
    exact ⟨hd, f, rest, g', nx, sp, ht, hf, rfl⟩

theorem good_step {s s1 : S} {u : Tid} (hg : Good s)
    (hn : next s (.step u (.go true 0)) = some s1) : Good s1 := by
  obtain ⟨hd, f, rest, g', nx, sp, ht, hf, e⟩ := step_cases hn
  have hft : f ∈ s.th u := by rw [ht]; exact List.mem_cons_self
  have hbf := hg.settled.2 u f hft
  obtain ⟨k1, k2, k3⟩ := begins_go hf hg.settled.1 hbf
  refine ⟨.next hg.reach ?_ hn, ?_, ?_⟩
  · intro h hh hb
    rw [ht] at hh
    injection hh with hh; subst hh
    cases f <;> first | (simp [Frame.isBpFlags] at hb; done) | (simp [Frame.begins] at hbf; done)
  · rw [e, applyRes_g]; split <;> exact k1
  · intro w h hh
    rw [e] at hh
    rcases applyRes_mem ht hh with h1 | ⟨l, e1, _, h1⟩ | ⟨h1, _⟩ | ⟨_, h1 | ⟨_, _, _, _, h1⟩⟩
    · exact hg.settled.2 w h h1
    · exact k2 l e1 h h1
    · exact k3 h h1
    · subst h1; rfl
    · subst h1; rfl

theorem good_run {T : Tid → Prop} {s s' : S} (hr : Run T s s') (hg : Good s) : Good s' := by
  induction hr with
  | refl => exact hg
  | step _ hn _ ih => exact ih (good_step hg hn)

/-- A step does not change the stacks of other threads. -/
theorem step_keep {A : S → Lbl → Prop} {s s1 : S} {u x : Tid} (hs : ReachA A s)
    (hn : next s (.step u (.go true 0)) = some s1) (hx : x ≠ u) (hl : s.th x ≠ []) :
    s1.th x = s.th x := by
  obtain ⟨hd, f, rest, g', nx, sp, ht, hf, e⟩ := step_cases hn
  have hx2 : x ≠ s.g.nextTid := by
    intro e; subst e; exact hl (fresh_inv hs _ (Nat.le_refl _))
  subst e
  cases nx <;> cases sp <;> simp [applyRes, setTh, hx, hx2]

theorem run_keep {T : Tid → Prop} {s s' : S} (hr : Run T s s') (hg : Good s) {x : Tid}
    (hx : ¬ T x) (hl : s.th x ≠ []) : s'.th x = s.th x := by
  induction hr with
  | refl => rfl
  | @step s s1 s' u hu hn _ ih =>
    have h1 := step_keep hg.reach hn (fun (e : x = u) => hx (by rw [e]; exact hu)) hl
    rw [ih (good_step hg hn) (by rw [h1]; exact hl), h1]

/-! ## Work left -/

def Frame.wt : Frame → Nat
  | .realExit => 4 | .xMain | .xErr | .xExit => 5 | .xUExit | .xExec | .xSig _ => 4
  | .el0 | .bl0 | .bpCall _ | .fkPost0 .. | .ul0 _ | .epFini _ | .ignApp | .pc8 .. => 2
  | .br1 .. | .brKill .. => 2
  | .br0 _ | .ign .. | .fkReal .. | .finCb .. | .epFini0 _ | .pc7 .. => 3
  | .fkPre _ | .fin0 .. | .pcStack .. => 4
  | .bpFlags _ | .fk0 | .sdMy _ | .h0 | .cl0 _ | .sw0 | .pc6 .. => 5
  | .bpReset _ | .sdDone _ | .mk1 .. => 6
  | .bp0 .. | .sdScan .. | .sdKill .. | .sdScan2 .. | .btApp _ | .mk0 .. => 7
  | .sd3 | .bt5 _ | .pcPre .. => 8
  | .sd2 | .bt4 _ | .pc5 .. => 9
  | .sd1 | .btInit _ | .pcSup .. => 10
  | .sd0 | .bt3 _ | .pcSup1 .. => 11
  | .bt2 _ | .pcSup0 .. => 12
  | .bt1 _ | .pc4 .. => 13
  | .bt0 _ | .pc3 .. => 14
  | .epBegin _ => 15
  | .ep2 .. => 16
  | .pc2 .. => 22 | .pc1 .. => 23 | .pc0 .. => 24
  | _ => 1

def work (l : List Frame) : Nat := (l.map Frame.wt).sum

/-- Steps left in the loop of monitor_broadcast_signal. -/
def Frame.loop : Frame → Nat
  | .br1 _ todo => 2 * todo.length + 1
  | .brKill _ _ todo => 2 * todo.length + 2
  | _ => 0

def loopOf (l : List Frame) : Nat := (l.head?.map Frame.loop).getD 0

theorem work_go {g g' : G} {t : Tid} {f : Frame} {l : List Frame} {sp : Option Frame}
    (h : fstep g t true 0 f = some (g', .go l, sp)) (he : f.mayEnd = false)
    (hp : f.polls = false) : work l < f.wt ∨ (work l = f.wt ∧ loopOf l < f.loop) := by
  cases f <;> first
    | (simp [Frame.mayEnd] at he; done)
    | (simp [Frame.polls] at hp; done)
    | skip
  all_goals (fstep_cases h <;> first
    | exact Or.inl (Nat.le_of_ble_eq_true rfl)
    | contradiction
    | (refine Or.inr ⟨rfl, ?_⟩; simp only [loopOf, Frame.loop, List.head?_cons, Option.map_some,
        Option.getD_some, List.length_cons]; omega)
    | (left; simp only [work]; split <;> exact Nat.le_of_ble_eq_true rfl))

/-- A step without unwinding, if the frame does not end the thread. -/
theorem go_of {g g' : G} {t : Tid} {f : Frame} {nx : Next} {sp : Option Frame}
    (h : fstep g t true 0 f = some (g', nx, sp)) (he : f.mayEnd = false) :
    nx = .die ∨ ∃ l, nx = .go l := by
  cases nx with
  | go l => exact Or.inr ⟨l, rfl⟩
  | die => exact Or.inl rfl
  | unwind =>
    have := go_fits h
    simp only [fitsNext] at this
    rw [he] at this; cases this

/-- Removing the calls `pre` from the top of the stack of `u`. -/
theorem clear {T : Tid → Prop} {u : Tid} (hT : T u) {Inv : S → Prop} {okf : Frame → Bool}
    (hInv : ∀ {s s1 : S}, Inv s → Run T s s1 → Inv s1) (hgood : ∀ {s : S}, Inv s → Good s)
    (hend : ∀ f, okf f = true → f.mayEnd = false)
    (hcl : ∀ {g g' : G} {f : Frame} {l : List Frame} {sp : Option Frame},
      fstep g u true 0 f = some (g', .go l, sp) → okf f = true → ∀ a ∈ l, okf a = true)
    (hwait : ∀ {s : S} {f : Frame} {rest : List Frame}, Inv s → s.g.dead = false →
      s.th u = f :: rest → okf f = true → f.polls = false →
      ∃ s1, Run T s s1 ∧ (s1.g.dead = true ∨ s1.th u = f :: rest ∧ ¬ blocked s1 u))
    (hpoll : ∀ {s : S} {f : Frame} {rest : List Frame}, Inv s → s.g.dead = false →
      s.th u = f :: rest → okf f = true → f.polls = true →
      ∃ s1, Run T s s1 ∧ (s1.g.dead = true ∨ ∃ my, s1.th u = .sdDone my :: rest))
    (hdone : ∀ {f : Frame} {my : Option NodeId}, okf f = true → f.polls = true →
      okf (.sdDone my) = true)
    {s : S} (hs : Inv s) (hd : s.g.dead = false) (pre : List Frame) {rest : List Frame}
    (ht : s.th u = pre ++ rest) (hok : ∀ f ∈ pre, okf f = true) :
    ∃ s1, Run T s s1 ∧ (s1.g.dead = true ∨ s1.th u = rest) := by
  match pre, ht, hok with
  | [], ht, _ => exact ⟨s, .refl s, Or.inr ht⟩
  | f :: pre, ht, hok =>
    have hf := hok f List.mem_cons_self
    have hpre : ∀ h ∈ pre, okf h = true := fun h hh => hok h (List.mem_cons_of_mem _ hh)
    by_cases hp : f.polls = true
    · obtain ⟨s1, hr, hdd | ⟨my, ht1⟩⟩ := hpoll hs hd ht hf hp
      · exact ⟨s1, hr, Or.inl hdd⟩
      · by_cases hd1 : s1.g.dead = true
        · exact ⟨s1, hr, Or.inl hd1⟩
        · have : work (.sdDone my :: pre) < work (f :: pre) := by
            cases f <;> first | (simp [Frame.polls] at hp; done) | simp [work, Frame.wt]
          obtain ⟨s2, hr2, h2⟩ := clear hT hInv hgood hend hcl hwait hpoll hdone (hInv hs hr)
            (by simpa using hd1) (.sdDone my :: pre) (rest := rest) (by simpa using ht1) (by
              intro h hh
              rcases List.mem_cons.1 hh with e | hh
              · subst e; exact hdone hf hp
              · exact hpre h hh)
          exact ⟨s2, hr.trans hr2, h2⟩
    · have hp : f.polls = false := by simpa using hp
      obtain ⟨s1, hr, hdd | ⟨ht1, hb⟩⟩ := hwait hs hd ht hf hp
      · exact ⟨s1, hr, Or.inl hdd⟩
      · by_cases hd1 : s1.g.dead = true
        · exact ⟨s1, hr, Or.inl hd1⟩
        · have hd1 : s1.g.dead = false := by simpa using hd1
          obtain ⟨s2, hn⟩ := goes_on hd1 (by rw [ht1]; simp) hb true 0
          obtain ⟨_, f', rest', g', nx, sp, ht', hfs, e⟩ := step_cases hn
          rw [ht1] at ht'
          injection ht' with e1 e2
          subst e1
          have hr2 : Run T s s2 := hr.trans (.one hT hn)
          rcases go_of hfs (hend f hf) with hnx | ⟨l, hnx⟩
          · subst hnx
            exact ⟨s2, hr2, Or.inl (by rw [e, applyRes_g]; simp)⟩
          · subst hnx
            have hth : s2.th u = (l ++ pre) ++ rest := by
              rw [e, ← e2]
              cases sp <;> simp [applyRes, setTh]
            have hlt : work (l ++ pre) < work (f :: pre) ∨
                (work (l ++ pre) = work (f :: pre) ∧ loopOf (l ++ pre) < loopOf (f :: pre)) := by
              have hw := work_go hfs (hend f hf) hp
              simp only [work, List.map_append, List.sum_append, List.map_cons, List.sum_cons] at hw ⊢
              rcases hw with hw | ⟨hw, hw2⟩
              · left; omega
              · right
                refine ⟨by omega, ?_⟩
                have hl : l ≠ [] := by
                  intro e; subst e
                  cases f <;> simp [Frame.wt] at hw
                obtain ⟨a, l', rfl⟩ := List.exists_cons_of_ne_nil hl
                simpa [loopOf] using hw2
            by_cases hd2 : s2.g.dead = true
            · exact ⟨s2, hr2, Or.inl hd2⟩
            · obtain ⟨s3, hr3, h3⟩ := clear hT hInv hgood hend hcl hwait hpoll hdone (hInv hs hr2)
                (by simpa using hd2) (l ++ pre) (rest := rest) hth (by
                  intro h hh
                  rcases List.mem_append.1 hh with hh | hh
                  · exact hcl hfs hf h hh
                  · exact hpre h hh)
              exact ⟨s3, hr2.trans hr3, h3⟩
  termination_by (work pre, loopOf pre)
  decreasing_by
    · exact Prod.Lex.left _ _ this
    · rcases hlt with h | ⟨h1, h2⟩
      · exact Prod.Lex.left _ _ h
      · rw [h1]; exact Prod.Lex.right _ h2

/-! ## The lock -/

theorem rank_ne {s : S} {t u : Tid} {r : Nat} (h1 : rankOf s u < r) (h2 : r ≤ rankOf s t) : u ≠ t := by
  intro e; subst e; omega

theorem rankOf_eq {s s' : S} {t : Tid} (h : s'.th t = s.th t) : rankOf s' t = rankOf s t := by
  simp [rankOf, h]

theorem rank_live {s : S} {t : Tid} (h : 0 < rankOf s t) : s.th t ≠ [] := by
  intro e; simp [rankOf, e] at h

theorem fits_closed {g g' : G} {u : Tid} {f : Frame} {l : List Frame} {sp : Option Frame}
    (h : fstep g u true 0 f = some (g', .go l, sp)) {a : Frame} (ha : a ∈ l) :
    (f.mayWait = false → a.mayWait = false) ∧ (f.mayEnd = false → a.mayEnd = false) ∧
      (f.mayPoll = false → a.mayPoll = false) := by
  have := go_fits h
  simp only [fitsNext, Bool.and_eq_true, List.all_eq_true] at this
  have := this.1 a ha
  simp only [fits, Bool.and_eq_true, Bool.or_eq_true, Bool.not_eq_true'] at this
  obtain ⟨⟨h1, h2⟩, h3⟩ := this
  refine ⟨fun e => ?_, fun e => ?_, fun e => ?_⟩
  · rcases h1 with h1 | h1
    · exact h1
    · rw [e] at h1; cases h1
  · rcases h2 with h2 | h2
    · exact h2
    · rw [e] at h2; cases h2
  · rcases h3 with h3 | h3
    · exact h3
    · rw [e] at h3; cases h3

theorem not_blocked_of {s : S} {u : Tid} {f : Frame} {rest : List Frame} (ht : s.th u = f :: rest)
    (h1 : f.wantsLock = true → s.g.lock = false) (h2 : f.isEpWait = true → s.g.finiProcDone = true)
    (h3 : f.polls = true → ∀ n ∈ s.g.list, awaited s.g u n = false) : ¬ blocked s u := by
  have key : ∀ {p : Frame → Bool}, top s u p → p f = true := by
    rintro p ⟨x, hx, hp⟩
    rw [ht] at hx; injection hx with hx; subst hx; exact hp
  rintro (⟨a, b⟩ | ⟨a, b⟩ | ⟨a, n, b, c⟩)
  · rw [h1 (key a)] at b; cases b
  · rw [h2 (key a)] at b; cases b
  · rw [h3 (key a) n b] at c; cases c

theorem may_of {f : Frame} : (f.wantsLock = true → f.mayWait = true) ∧
    (f.polls = true → f.mayPoll = true) ∧ (f.isEpWait = true → f.mayEnd = true) ∧
    (f.mayEnd = true → f.mayPoll = true) ∧ (f.mayEnd = true → f.mayWait = true) ∧
    (f.polls = true → f.mayWait = true) := by
  cases f <;> simp [Frame.wantsLock, Frame.mayWait, Frame.polls, Frame.mayPoll, Frame.isEpWait,
    Frame.mayEnd]

theorem off {a b : Bool} (h : a = true → b = true) (hb : b = false) : a = false := by
  cases a
  · rfl
  · rw [h rfl] at hb; cases hb

/-- One step of `w`, whose innermost call is inside the lock. -/
theorem lock_end {s : S} (hg : Good s) {w : Tid} {f : Frame} {rest : List Frame} (k : Nat)
    (hk : f.loop ≤ k) (ht : s.th w = f :: rest) (hf : f.inLock = true) (hd : s.g.dead = false) :
    ∃ s1, Run (· = w) s s1 ∧ (s1.g.dead = true ∨ s1.g.lock = false) := by
  induction k generalizing s f with
  | zero =>
    have hb : ¬ blocked s w := not_blocked_of ht
      (fun e => by cases f <;> simp [Frame.inLock, Frame.wantsLock] at hf e)
      (fun e => by cases f <;> simp [Frame.inLock, Frame.isEpWait] at hf e)
      (fun e => by cases f <;> simp [Frame.inLock, Frame.polls] at hf e)
    obtain ⟨s1, hn⟩ := goes_on hd (by rw [ht]; simp) hb true 0
    obtain ⟨_, f', rest', g', nx, sp, ht', hfs, e⟩ := step_cases hn
    rw [ht] at ht'; injection ht' with e1 e2; subst e1
    refine ⟨s1, .one rfl hn, ?_⟩
    rw [e, applyRes_g]
    cases f <;> first
      | (simp [Frame.inLock] at hf; done)
      | (simp [Frame.loop] at hk; done)
      | (fstep_cases hfs <;> simp [G.emit, G.upd])
  | succ k ih =>
    have hb : ¬ blocked s w := not_blocked_of ht
      (fun e => by cases f <;> simp [Frame.inLock, Frame.wantsLock] at hf e)
      (fun e => by cases f <;> simp [Frame.inLock, Frame.isEpWait] at hf e)
      (fun e => by cases f <;> simp [Frame.inLock, Frame.polls] at hf e)
    obtain ⟨s1, hn⟩ := goes_on hd (by rw [ht]; simp) hb true 0
    obtain ⟨_, f', rest', g', nx, sp, ht', hfs, e⟩ := step_cases hn
    rw [ht] at ht'; injection ht' with e1 e2; subst e1; subst e2
    by_cases hd1 : s1.g.dead = true
    · exact ⟨s1, .one rfl hn, Or.inl hd1⟩
    have hd1 : s1.g.dead = false := by simpa using hd1
    have key : (s1.g.lock = false) ∨ ∃ h, s1.th w = h :: rest ∧ h.inLock = true ∧ h.loop ≤ k := by
      rw [e, applyRes_g]
      cases f <;> first
        | (simp [Frame.inLock] at hf; done)
        | (fstep_cases hfs <;> first
            | (left; rfl)
            | (right
               refine ⟨_, setTh_self _ _ _, rfl, ?_⟩
               simp [Frame.loop] at hk ⊢; omega)
            | (right
               refine ⟨_, setTh_self _ _ _, rfl, ?_⟩
               simp [Frame.loop]; done)
            | (exfalso; rw [e, applyRes_g] at hd1; simp at hd1; done))
    rcases key with h | ⟨h, h1, h2, h3⟩
    · exact ⟨s1, .one rfl hn, Or.inr h⟩
    · obtain ⟨s2, hr, hs2⟩ := ih (good_step hg hn) h3 h1 h2 hd1
      exact ⟨s2, .step rfl hn hr, hs2⟩

/-- Who holds the lock releases it, without waiting for anybody. -/
theorem release_lock {s : S} (hg : Good s) (hd : s.g.dead = false) (hl : s.g.lock = true) :
    ∃ w s1, rankOf s w = 0 ∧ Run (· = w) s s1 ∧ (s1.g.dead = true ∨ s1.g.lock = false) := by
  obtain ⟨w, f0, hm, hp⟩ := holder_inv hg.reach hl
  have hrank := (rank_duty hg.reach hm).1 hp
  obtain ⟨pre, rest, ht⟩ := List.append_of_mem hm
  have htidy := tidy_inv hg.reach w
  rw [ht] at htidy
  have hpre : ∀ f ∈ pre, (!f.mayWait) = true := by
    intro f hf
    have := (List.pairwise_append.1 htidy).2.2 f hf f0 List.mem_cons_self
    simp only [clash, hp, Bool.and_true, Bool.or_eq_false_iff] at this
    simp [this.1.1]
  obtain ⟨s1, hr, h1⟩ := clear (T := (· = w)) (u := w) rfl (Inv := Good) (okf := fun f => !f.mayWait)
    (fun h hr => good_run hr h) (fun h => h)
    (fun f hf => off may_of.2.2.2.2.1 (by simpa using hf))
    (fun hfs hf a ha => by
      have := (fits_closed hfs ha).1 (by simpa using hf)
      simp [this])
    (fun {s} {f} {rest} _ _ ht hf _ => ⟨s, .refl s, Or.inr ⟨ht, by
      have hf : f.mayWait = false := by simpa using hf
      refine not_blocked_of ht (fun e => ?_) (fun e => ?_) (fun e => ?_)
      · rw [may_of.1 e] at hf; cases hf
      · rw [may_of.2.2.2.2.1 (may_of.2.2.1 e)] at hf; cases hf
      · rw [may_of.2.2.2.2.2 e] at hf; cases hf⟩⟩)
    (fun {s} {f} {rest} _ _ _ hf hp => by
      have hf : f.mayWait = false := by simpa using hf
      rw [may_of.2.2.2.2.2 hp] at hf; cases hf)
    (fun _ _ => rfl) hg hd pre ht hpre
  rcases h1 with h1 | h1
  · exact ⟨w, s1, hrank, hr, Or.inl h1⟩
  · by_cases hd1 : s1.g.dead = true
    · exact ⟨w, s1, hrank, hr, Or.inl hd1⟩
    · obtain ⟨s2, hr2, h2⟩ := lock_end (good_run hr hg) _ (Nat.le_refl _) h1 hp (by simpa using hd1)
      exact ⟨w, s2, hrank, hr.trans hr2, h2⟩

end Libmonitor.Proc
