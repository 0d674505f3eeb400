import Verif.Proc.Release
/-!
# Threads that wait are released: the lock, the fini-thread calls, the exit callbacks
-/

namespace Libmonitor.Proc

/-- The threads of `K` wait and do not move. -/
structure Still (K : Tid → Prop) (r : Nat) (s : S) : Prop where
  good : Good s
  rank : ∀ x, K x → r + 1 ≤ rankOf s x

theorem still_run {K : Tid → Prop} {r : Nat} {s s1 : S} (h : Still K r s)
    (hr : Run (fun x => ¬ K x) s s1) : Still K r s1 := by
  refine ⟨good_run hr h.good, fun x hx => ?_⟩
  have h1 := h.rank x hx
  have := run_keep hr h.good (x := x) (fun hn => hn hx) (rank_live (by omega))
  rw [rankOf_eq this]; exact h1

theorem still_le {K : Tid → Prop} {r r' : Nat} {s : S} (h : Still K r s) (hle : r' ≤ r) :
    Still K r' s := ⟨h.good, fun x hx => Nat.le_trans (by omega) (h.rank x hx)⟩

theorem rank_cons {s : S} {u : Tid} {f : Frame} {rest : List Frame} (h : s.th u = f :: rest) :
    rankOf s u = f.rank := by simp [rankOf, h]

/-- A thread that does not poll and does not wait for the exit callbacks gets the lock. -/
theorem lock_wait {K : Tid → Prop} {s : S} (h : Still K 0 s) (hd : s.g.dead = false) {u : Tid}
    {f : Frame} {rest : List Frame} (ht : s.th u = f :: rest) (hp : f.polls = false)
    (he : f.isEpWait = false) :
    ∃ s1, Run (fun x => ¬ K x) s s1 ∧ (s1.g.dead = true ∨ s1.th u = f :: rest ∧ ¬ blocked s1 u) := by
  by_cases hw : f.wantsLock = true ∧ s.g.lock = true
  · obtain ⟨w, s1, hrk, hr, h1⟩ := release_lock h.good hd hw.2
    have hne : u ≠ w := by
      intro e; subst e
      rw [rank_cons ht] at hrk; simp [Frame.rank, hw.1] at hrk
    have hKw : ¬ K w := fun hk => by have := h.rank w hk; omega
    refine ⟨s1, hr.mono (fun x hx => by rw [hx]; exact hKw), ?_⟩
    rcases h1 with h1 | h1
    · exact Or.inl h1
    · have hk := run_keep hr h.good (x := u) hne (by rw [ht]; simp)
      rw [ht] at hk
      exact Or.inr ⟨hk, not_blocked_of hk (fun _ => h1) (fun e => by rw [he] at e; cases e)
        (fun e => by rw [hp] at e; cases e)⟩
  · refine ⟨s, .refl s, Or.inr ⟨ht, not_blocked_of ht (fun e => ?_) (fun e => by rw [he] at e; cases e)
      (fun e => by rw [hp] at e; cases e)⟩⟩
    cases hl : s.g.lock
    · rfl
    · exact absurd ⟨e, hl⟩ hw

/-- Calls that may wait for the lock only come to their end. -/
theorem clear1 {K : Tid → Prop} {s : S} (h : Still K 0 s) (hd : s.g.dead = false) {u : Tid}
    (hu : ¬ K u) {pre rest : List Frame} (ht : s.th u = pre ++ rest)
    (hok : ∀ f ∈ pre, f.mayPoll = false) :
    ∃ s1, Run (fun x => ¬ K x) s s1 ∧ (s1.g.dead = true ∨ s1.th u = rest) :=
  clear (T := fun x => ¬ K x) (u := u) hu (Inv := Still K 0) (okf := fun f => !f.mayPoll)
    (fun h hr => still_run h hr) (fun h => h.good)
    (fun f hf => off may_of.2.2.2.1 (by simpa using hf))
    (fun hfs hf a ha => by
      have := (fits_closed hfs ha).2.2 (by simpa using hf)
      simp [this])
    (fun {s} {f} {rest} h hd ht hf hp => lock_wait h hd ht hp
      (off may_of.2.2.1 (off may_of.2.2.2.1 (by simpa using hf))))
    (fun {s} {f} {rest} _ _ _ hf hp => by
      have hf : f.mayPoll = false := by simpa using hf
      rw [may_of.2.1 hp] at hf; cases hf)
    (fun _ _ => rfl) h hd pre ht (fun f hf => by simp [hok f hf])

/-! ## Fini-thread calls still to come -/

/-- Whether the frame may lead to a fini-thread call. -/
def Frame.pot : Frame → Nat
  | .start | .mainAt0 | .mainAt | .mainApp | .ep0 _ | .ep1 .. | .ep2 .. | .epBegin _ | .px0
  | .sd0 | .sd1 | .sd2 | .sd3 | .sdScan .. | .sdKill .. | .sdScan2 .. | .sdDone _ | .sdMy _
  | .fin0 .. | .finCb .. | .h0 | .cl0 _ | .sw0
  | .bt0 _ | .bt1 _ | .bt2 _ | .bt3 _ | .btInit _ | .bt4 _ | .bt5 _ | .btApp _
  | .pc0 .. | .pc1 .. | .pc2 .. | .pc3 .. | .pc4 .. | .pcSup0 .. | .pcSup1 .. | .pcSup ..
  | .pc5 .. | .pcPre ..
  | .mk0 .. | .mk1 .. | .pc6 .. | .pcStack .. | .pc7 .. => 1
  | _ => 0

def Frame.finPot (f : Frame) : Nat := if f.inFini.isSome then 1 else 0

def spPot (sp : Option Frame) : Nat := (sp.map Frame.pot).getD 0

theorem pot_go {g g' : G} {t : Tid} {f : Frame} {l : List Frame} {sp : Option Frame}
    (h : fstep g t true 0 f = some (g', .go l, sp)) :
    toks Frame.pot l + spPot sp + f.finPot ≤ f.pot := by
  cases f <;> fstep_cases h <;> first
    | exact Nat.le_of_ble_eq_true rfl
    | (split <;> exact Nat.le_of_ble_eq_true rfl)

theorem pot_unwound (l : List Frame) : toks Frame.pot (unwound l) ≤ toks Frame.pot l := by
  rcases unwound_cases l with e | ⟨f, n, hf, ha, e⟩
  · rw [e]; exact Nat.zero_le _
  · rw [e]
    obtain ⟨a, b, rfl⟩ := List.append_of_mem hf
    have : f.pot = 1 := by cases f <;> first | rfl | (simp [Frame.armed] at ha; done)
    have h1 : toks Frame.pot [.cl0 n, .tdtor] = 1 := rfl
    rw [h1, toks_append, toks_cons, this]
    omega

def psum (th : Tid → List Frame) : Nat → Nat
  | 0 => 0
  | n + 1 => psum th n + toks Frame.pot (th n)

theorem psum_ge {th : Tid → List Frame} {t : Tid} (l : List Frame) {n : Nat} (h : n ≤ t) :
    psum (setTh th t l) n = psum th n := by
  induction n with
  | zero => rfl
  | succ n ih =>
    simp only [psum]
    rw [ih (by omega), setTh_ne _ _ (by omega)]

theorem psum_lt {th : Tid → List Frame} {t : Tid} (l : List Frame) {n : Nat} (h : t < n) :
    psum (setTh th t l) n + toks Frame.pot (th t) = psum th n + toks Frame.pot l := by
  induction n with
  | zero => omega
  | succ n ih =>
    simp only [psum]
    by_cases e : t = n
    · subst e
      rw [psum_ge l (Nat.le_refl _), setTh_self]; omega
    · have := ih (by omega)
      rw [setTh_ne _ _ (by omega)]; omega

def pots (s : S) : Nat := psum s.th s.g.nextTid

theorem pots_step {s s1 : S} {u : Tid} (hg : Good s) (hn : next s (.step u (.go true 0)) = some s1)
    {f : Frame} {rest : List Frame} (ht : s.th u = f :: rest) :
    pots s1 ≤ pots s ∧ (s1.g.dead = false → f.inFini.isSome = true → pots s1 < pots s) := by
  obtain ⟨hd, f', rest', g', nx, sp, ht', hfs, e⟩ := step_cases hn
  rw [ht] at ht'; injection ht' with e1 e2; subst e1; subst e2
  have hu : u < s.g.nextTid := by
    apply Classical.byContradiction
    intro h
    rw [fresh_inv hg.reach u (by omega)] at ht; cases ht
  subst e
  have htk : toks Frame.pot (s.th u) = f.pot + toks Frame.pot rest := by rw [ht, toks_cons]
  cases nx with
  | die =>
    rcases fstep_spawn hfs with ⟨rfl, e⟩ | ⟨f0, l, _, _, e⟩
    · have : pots (applyRes s u rest (g', .die, none)) = pots s := by
        show psum s.th g'.nextTid = _
        rw [e]; rfl
      exact ⟨by omega, fun h => by simp [applyRes] at h⟩
    · cases e
  | unwind =>
    rcases fstep_spawn hfs with ⟨rfl, e⟩ | ⟨f0, l, _, _, e⟩
    · have h1 : pots (applyRes s u rest (g', .unwind, none)) =
          psum (setTh s.th u (unwound rest)) s.g.nextTid := by
        show psum _ g'.nextTid = _
        rw [e]; rfl
      have h2 := psum_lt (unwound rest) (th := s.th) hu
      have h3 := pot_unwound rest
      refine ⟨by rw [h1]; unfold pots; omega, fun _ hf => ?_⟩
      exfalso
      cases f <;> first | (simp [Frame.inFini] at hf; done) | skip
      fstep_cases hfs
    · cases e
  | go l =>
    have hpot := pot_go hfs
    have key : pots (applyRes s u rest (g', .go l, sp)) + f.finPot ≤ pots s := by
      rcases fstep_spawn hfs with ⟨rfl, e⟩ | ⟨f0, l', rfl, e, _⟩
      · have h1 : pots (applyRes s u rest (g', .go l, none)) =
            psum (setTh s.th u (l ++ rest)) s.g.nextTid := by
          show psum _ g'.nextTid = _
          rw [e]; rfl
        have h2 := psum_lt (l ++ rest) (th := s.th) hu
        rw [toks_append] at h2
        rw [h1]; unfold pots
        simp only [spPot, Option.map_none, Option.getD_none] at hpot
        omega
      · have h1 : pots (applyRes s u rest (g', .go l, some f0)) =
            psum (setTh (setTh s.th s.g.nextTid [f0]) u (l ++ rest)) (s.g.nextTid + 1) := by
          show psum _ g'.nextTid = _
          rw [e]; rfl
        have h2 := psum_lt (l ++ rest) (th := setTh s.th s.g.nextTid [f0]) (t := u)
          (n := s.g.nextTid + 1) (Nat.lt_succ_of_lt hu)
        have h3 : psum (setTh s.th s.g.nextTid [f0]) (s.g.nextTid + 1) =
            psum s.th s.g.nextTid + f0.pot := by
          simp only [psum]
          rw [psum_ge _ (Nat.le_refl _), setTh_self, toks_cons, toks_nil, Nat.add_zero]
        rw [setTh_ne _ _ (Nat.ne_of_lt hu), toks_append, h3] at h2
        rw [h1]; unfold pots
        simp only [spPot, Option.map_some, Option.getD_some] at hpot
        omega
    refine ⟨by omega, fun _ hf => ?_⟩
    simp only [Frame.finPot, hf, if_true] at key
    omega

theorem pots_run {T : Tid → Prop} {s s1 : S} (hr : Run T s s1) (hg : Good s) : pots s1 ≤ pots s := by
  induction hr with
  | refl => exact Nat.le_refl _
  | step hu hn _ ih =>
    obtain ⟨_, f, rest, _, _, _, ht, _, _⟩ := step_cases hn
    exact Nat.le_trans (ih (good_step hg hn)) (pots_step hg hn ht).1

/-- One step of a thread. -/
theorem step1 {s : S} {w : Tid} {f : Frame} {rest l : List Frame} {g' : G} (hd : s.g.dead = false)
    (ht : s.th w = f :: rest) (hf : fstep s.g w true 0 f = some (g', .go l, none)) :
    ∃ s1, next s (.step w (.go true 0)) = some s1 ∧ s1.g = g' ∧ s1.th w = l ++ rest := by
  refine ⟨applyRes s w rest (g', .go l, none), by simp [next, step, hd, ht, hf], rfl, ?_⟩
  simp [applyRes, setTh]

/-- The fini-thread calls come to their end. -/
theorem release_fini {K : Tid → Prop} {s : S} (h : Still K 1 s) (hd : s.g.dead = false) :
    ∃ s1, Run (fun x => ¬ K x) s s1 ∧ (s1.g.dead = true ∨ ∀ u, ∀ f ∈ s1.th u, f.inFini = none) := by
  generalize hk : pots s = k
  induction k using Nat.strongRecOn generalizing s with
  | _ k ih =>
    by_cases hall : ∀ u, ∀ f ∈ s.th u, f.inFini = none
    · exact ⟨s, .refl s, Or.inr hall⟩
    · obtain ⟨u, f, hf, hi⟩ : ∃ u f, f ∈ s.th u ∧ f.inFini.isSome = true := by
        apply Classical.byContradiction
        intro hn
        apply hall
        intro u f hf
        cases hfi : f.inFini with
        | none => rfl
        | some n => exact absurd ⟨u, f, hf, by rw [hfi]; rfl⟩ hn
      have hrk := (rank_duty h.good.reach hf).2.1 hi
      have hu : ¬ K u := fun hK => by have := h.rank u hK; omega
      obtain ⟨pre, rest, ht⟩ := List.append_of_mem hf
      have htidy := tidy_inv h.good.reach u
      rw [ht] at htidy
      have hpre : ∀ a ∈ pre, a.mayPoll = false := by
        intro a ha
        have := (List.pairwise_append.1 htidy).2.2 a ha f List.mem_cons_self
        simp only [clash, hi, Bool.and_true, Bool.or_eq_false_iff] at this
        exact this.2
      obtain ⟨s1, hr1, h1⟩ := clear1 (still_le h (Nat.zero_le _)) hd hu ht hpre
      by_cases hd1 : s1.g.dead = true
      · exact ⟨s1, hr1, Or.inl hd1⟩
      have hd1' : s1.g.dead = false := by simpa using hd1
      have ht1 : s1.th u = f :: rest := by
        rcases h1 with h1 | h1
        · exact absurd h1 hd1
        · exact h1
      obtain ⟨g', l, hfs⟩ : ∃ g' l, fstep s1.g u true 0 f = some (g', .go l, none) := by
        cases f <;> first | (simp [Frame.inFini] at hi; done) | exact ⟨_, _, rfl⟩
      obtain ⟨s2, hn2, _, _⟩ := step1 hd1' ht1 hfs
      have hS1 := still_run h hr1
      have hr2 : Run (fun x => ¬ K x) s s2 := hr1.trans (.one hu hn2)
      by_cases hd2 : s2.g.dead = true
      · exact ⟨s2, hr2, Or.inl hd2⟩
      have hd2' : s2.g.dead = false := by simpa using hd2
      have hlt := (pots_step hS1.good hn2 ht1).2 hd2' hi
      have hle := pots_run hr1 h.good
      obtain ⟨s3, hr3, h3⟩ := ih (pots s2) (by omega) (still_run h hr2) hd2' rfl
      exact ⟨s3, hr2.trans hr3, h3⟩

/-! ## The loop of the shootdown -/

/-- No fini-thread call is under way. -/
def calm (g : G) : Prop := ∀ n, (g.nodes n).finiS = true → (g.nodes n).finiD = true

theorem calm_of {s : S} (hg : Good s) (h : ∀ u, ∀ f ∈ s.th u, f.inFini = none) : calm s.g := by
  intro n hs
  cases hd : (s.g.nodes n).finiD with
  | true => rfl
  | false =>
    obtain ⟨w, f, hf, hi⟩ := finier_inv hg.reach hs hd
    rw [h w f hf] at hi; cases hi

/-- One element of the list. -/
theorem loop_one {s : S} {w : Tid} {my : Option NodeId} {n : NodeId} {todo : List NodeId}
    {unf unst : Nat} {rest : List Frame} (hd : s.g.dead = false) (hc : calm s.g)
    (ht : s.th w = .sdScan my (n :: todo) unf unst :: rest) :
    ∃ s1 my' unf' unst', Run (· = w) s s1 ∧ s1.th w = .sdScan my' todo unf' unst' :: rest ∧
      s1.g.dead = false ∧ calm s1.g ∧ (unf = 0 ∨ 0 < unst → unf' = 0 ∨ 0 < unst') := by
  by_cases h1 : (s.g.nodes n).self = some w
  · obtain ⟨s1, hn, hg, ht1⟩ := step1 hd ht
      (show fstep s.g w true 0 _ = some (s.g, .go [.sdScan (some n) todo unf unst], none) by
        simp [fstep, h1, cont])
    exact ⟨s1, _, _, _, .one rfl hn, ht1, by rw [hg]; exact hd, by rw [hg]; exact hc, id⟩
  by_cases h2 : (s.g.nodes n).appl = true
  · by_cases h3 : (s.g.nodes n).finiS = true
    · obtain ⟨s1, hn, hg, ht1⟩ := step1 hd ht
        (show fstep s.g w true 0 _ = some (s.g, .go [.sdScan2 my n todo unf unst], none) by
          simp [fstep, h1, h2, h3, cont])
      have hd1 : s1.g.dead = false := by rw [hg]; exact hd
      obtain ⟨s2, hn2, hg2, ht2⟩ := step1 hd1 ht1
        (show fstep s1.g w true 0 _ = some (s1.g, .go [.sdScan my todo unf unst], none) by
          have : (s1.g.nodes n).finiD = true := by rw [hg]; exact hc n h3
          simp [fstep, this, cont])
      exact ⟨s2, _, _, _, .step rfl hn (.one rfl hn2), ht2, by rw [hg2]; exact hd1,
        by rw [hg2, hg]; exact hc, id⟩
    · have h3 : (s.g.nodes n).finiS = false := by simpa using h3
      obtain ⟨s1, hn, hg, ht1⟩ := step1 hd ht
        (show fstep s.g w true 0 _ = some (s.g, .go [.sdKill my n todo unf unst], none) by
          simp [fstep, h1, h2, h3, cont])
      have hd1 : s1.g.dead = false := by rw [hg]; exact hd
      obtain ⟨s2, hn2, hg2, ht2⟩ := step1 hd1 ht1 (by rfl)
      have hd2 : s2.g.dead = false := by rw [hg2]; exact hd1
      obtain ⟨s3, hn3, hg3, ht3⟩ := step1 hd2 ht2 (by rfl)
      exact ⟨s3, _, _, _, .step rfl hn (.step rfl hn2 (.one rfl hn3)), ht3, by rw [hg3]; exact hd2,
        by rw [hg3, hg2, hg]; exact hc, fun _ => Or.inr (Nat.succ_pos _)⟩
  · obtain ⟨s1, hn, hg, ht1⟩ := step1 hd ht
      (show fstep s.g w true 0 _ = some (s.g, .go [.sdScan my todo unf unst], none) by
        simp [fstep, h1, h2, cont])
    exact ⟨s1, _, _, _, .one rfl hn, ht1, by rw [hg]; exact hd, by rw [hg]; exact hc, id⟩

/-- The rest of the list. -/
theorem loop_list {w : Tid} {rest : List Frame} (todo : List NodeId) {s : S} {my : Option NodeId}
    {unf unst : Nat} (hd : s.g.dead = false) (hc : calm s.g)
    (ht : s.th w = .sdScan my todo unf unst :: rest) :
    ∃ s1 my' unf' unst', Run (· = w) s s1 ∧ s1.th w = .sdScan my' [] unf' unst' :: rest ∧
      s1.g.dead = false ∧ calm s1.g ∧ (unf = 0 ∨ 0 < unst → unf' = 0 ∨ 0 < unst') := by
  induction todo generalizing s my unf unst with
  | nil => exact ⟨s, my, unf, unst, .refl s, ht, hd, hc, id⟩
  | cons n todo ih =>
    obtain ⟨s1, my1, unf1, unst1, hr1, ht1, hd1, hc1, h1⟩ := loop_one hd hc ht
    obtain ⟨s2, my2, unf2, unst2, hr2, ht2, hd2, hc2, h2⟩ := ih hd1 hc1 ht1
    exact ⟨s2, my2, unf2, unst2, hr1.trans hr2, ht2, hd2, hc2, fun h => h2 (h1 h)⟩

/-- The loop ends. -/
theorem loop_end {w : Tid} {rest : List Frame} {s : S} {my : Option NodeId} {todo : List NodeId}
    {unf unst : Nat} (hd : s.g.dead = false) (hc : calm s.g)
    (ht : s.th w = .sdScan my todo unf unst :: rest) :
    ∃ s1 my', Run (· = w) s s1 ∧ s1.th w = .sdDone my' :: rest := by
  have fin : ∀ {s : S} {my : Option NodeId} {unf unst : Nat}, s.g.dead = false →
      s.th w = .sdScan my [] unf unst :: rest → unf = 0 ∨ 0 < unst →
      ∃ s1 my', Run (· = w) s s1 ∧ s1.th w = .sdDone my' :: rest := by
    intro s my unf unst hd ht h
    by_cases h0 : unf = 0
    · obtain ⟨s1, hn, _, ht1⟩ := step1 hd ht
        (show fstep s.g w true 0 _ = some (s.g, .go [.sdDone my], none) by simp [fstep, h0, cont])
      exact ⟨s1, my, .one rfl hn, ht1⟩
    · have h : 0 < unst := h.resolve_left h0
      obtain ⟨s1, hn, _, ht1⟩ := step1 hd ht
        (show fstep s.g w true 0 _ = some (s.g.emit w .gaveUp, .go [.sdDone my], none) by
          simp [fstep, h0, h, cont])
      exact ⟨s1, my, .one rfl hn, ht1⟩
  obtain ⟨s1, my1, unf1, unst1, hr1, ht1, hd1, hc1, _⟩ := loop_list todo hd hc ht
  by_cases h : unf1 = 0 ∨ 0 < unst1
  · obtain ⟨s2, my2, hr2, ht2⟩ := fin hd1 ht1 h
    exact ⟨s2, my2, hr1.trans hr2, ht2⟩
  · obtain ⟨s2, hn2, hg2, ht2⟩ := step1 hd1 ht1
      (show fstep s1.g w true 0 _ = some (s1.g, .go [.sdScan my1 s1.g.list 0 0], none) by
        have a : unf1 ≠ 0 := fun e => h (Or.inl e)
        have b : ¬ 0 < unst1 := fun e => h (Or.inr e)
        simp [fstep, a, b, cont])
    obtain ⟨s3, my3, unf3, unst3, hr3, ht3, hd3, _, h3⟩ :=
      loop_list _ (by rw [hg2]; exact hd1) (by rw [hg2]; exact hc1) ht2
    obtain ⟨s4, my4, hr4, ht4⟩ := fin hd3 ht3 (h3 (Or.inl rfl))
    exact ⟨s4, my4, hr1.trans (.step rfl hn2 (hr3.trans hr4)), ht4⟩

theorem poll_end {w : Tid} {rest : List Frame} {s : S} {f : Frame} (hd : s.g.dead = false)
    (hc : calm s.g) (ht : s.th w = f :: rest) (hp : f.polls = true) :
    ∃ s1 my', Run (· = w) s s1 ∧ s1.th w = .sdDone my' :: rest := by
  cases f with
  | sdScan my todo unf unst => exact loop_end hd hc ht
  | sdScan2 my n todo unf unst =>
    obtain ⟨s1, hn, hg, ht1⟩ := step1 hd ht (by rfl)
    obtain ⟨s2, my2, hr2, ht2⟩ := loop_end (by rw [hg]; exact hd) (by rw [hg]; exact hc) ht1
    exact ⟨s2, my2, .step rfl hn hr2, ht2⟩
  | sdKill my n todo unf unst =>
    obtain ⟨s1, hn, hg, ht1⟩ := step1 hd ht (by rfl)
    have hd1 : s1.g.dead = false := by rw [hg]; exact hd
    obtain ⟨s2, hn2, hg2, ht2⟩ := step1 hd1 ht1 (by rfl)
    obtain ⟨s3, my3, hr3, ht3⟩ := loop_end (by rw [hg2]; exact hd1)
      (by rw [hg2, hg]; exact hc) ht2
    exact ⟨s3, my3, .step rfl hn (.step rfl hn2 hr3), ht3⟩
  | _ => simp [Frame.polls] at hp

theorem rank_polls {f : Frame} (h : f.polls = true) : f.rank = 2 := by
  cases f <;> first | rfl | (simp [Frame.polls] at h; done)

theorem rank_epWait {f : Frame} (h : f.isEpWait = true) : f.rank = 3 := by
  cases f <;> first | rfl | (simp [Frame.isEpWait] at h; done)

/-- Calls that do not wait for the exit callbacks come to their end. -/
theorem clear3 {K : Tid → Prop} {s : S} (h : Still K 2 s) (hd : s.g.dead = false) {u : Tid}
    (hu : ¬ K u) {pre rest : List Frame} (ht : s.th u = pre ++ rest)
    (hok : ∀ f ∈ pre, f.mayEnd = false) :
    ∃ s1, Run (fun x => ¬ K x) s s1 ∧ (s1.g.dead = true ∨ s1.th u = rest) :=
  clear (T := fun x => ¬ K x) (u := u) hu (Inv := Still K 2) (okf := fun f => !f.mayEnd)
    (fun h hr => still_run h hr) (fun h => h.good)
    (fun f hf => by simpa using hf)
    (fun hfs hf a ha => by
      have := (fits_closed hfs ha).2.1 (by simpa using hf)
      simp [this])
    (fun {s} {f} {rest} h hd ht hf hp => lock_wait (still_le h (Nat.zero_le _)) hd ht hp
      (off may_of.2.2.1 (by simpa using hf)))
    (fun {s} {f} {rest} h hd ht _ hp => by
      have hS : Still (fun x => K x ∨ x = u) 1 s := by
        refine ⟨h.good, fun x hx => ?_⟩
        rcases hx with hx | hx
        · have := h.rank x hx; omega
        · subst hx; rw [rank_cons ht, rank_polls hp]; omega
      obtain ⟨s1, hr1, h1⟩ := release_fini hS hd
      have hr1' : Run (fun x => ¬ K x) s s1 := hr1.mono (fun x hx hk => hx (Or.inl hk))
      by_cases hd1 : s1.g.dead = true
      · exact ⟨s1, hr1', Or.inl hd1⟩
      have h1 := h1.resolve_left hd1
      have hk := run_keep hr1 h.good (x := u) (fun hn => hn (Or.inr rfl)) (by rw [ht]; simp)
      rw [ht] at hk
      obtain ⟨s2, my, hr2, ht2⟩ := poll_end (by simpa using hd1)
        (calm_of (good_run hr1 h.good) h1) hk hp
      exact ⟨s2, hr1'.trans (hr2.mono (fun x hx => by rw [hx]; exact hu)), Or.inr ⟨my, ht2⟩⟩)
    (fun _ _ => rfl) h hd pre ht (fun f hf => by simp [hok f hf])

/-! ## The exit callbacks -/

theorem release_exit {K : Tid → Prop} {s : S} (h : Still K 2 s) (hd : s.g.dead = false)
    (hc : s.g.cookie = true) (hp : s.g.finiProcDone = false) :
    ∃ s1, Run (fun x => ¬ K x) s s1 ∧ (s1.g.dead = true ∨ s1.g.finiProcDone = true) := by
  obtain ⟨w, f0, hm, hi⟩ := ender_inv h.good.reach hc hp
  have hrk := (rank_duty h.good.reach hm).2.2 hi
  have hw : ¬ K w := fun hk => by have := h.rank w hk; omega
  obtain ⟨pre, rest, ht⟩ := List.append_of_mem hm
  have htidy := tidy_inv h.good.reach w
  rw [ht] at htidy
  have hpre : ∀ f ∈ pre, f.mayEnd = false := by
    intro f hf
    have := (List.pairwise_append.1 htidy).2.2 f hf f0 List.mem_cons_self
    simp only [clash, hi, Bool.and_true, Bool.or_eq_false_iff] at this
    exact this.1.2
  obtain ⟨s1, hr1, h1⟩ := clear3 h hd hw ht hpre
  by_cases hd1 : s1.g.dead = true
  · exact ⟨s1, hr1, Or.inl hd1⟩
  have h1 := h1.resolve_left hd1
  have hd1 : s1.g.dead = false := by simpa using hd1
  have one : ∀ {s : S} {how : How} {w' : Way}, s.g.dead = false →
      s.th w = .epDone how w' :: rest →
      ∃ s1, Run (fun x => ¬ K x) s s1 ∧ (s1.g.dead = true ∨ s1.g.finiProcDone = true) := by
    intro s how w' hd ht
    obtain ⟨s1, hn, hg, _⟩ := step1 hd ht (by rfl)
    exact ⟨s1, .one hw hn, Or.inr (by rw [hg]; rfl)⟩
  have two : ∀ {s : S} {how : How}, s.g.dead = false → s.th w = .epFini how :: rest →
      ∃ s1, Run (fun x => ¬ K x) s s1 ∧ (s1.g.dead = true ∨ s1.g.finiProcDone = true) := by
    intro s how hd ht
    obtain ⟨s1, hn, hg, ht1⟩ := step1 hd ht (by rfl)
    obtain ⟨s2, hr2, h2⟩ := one (by rw [hg]; exact hd) ht1
    exact ⟨s2, .step hw hn hr2, h2⟩
  have three : ∀ {s : S} {how : How}, s.g.dead = false → s.th w = .epFini0 how :: rest →
      ∃ s1, Run (fun x => ¬ K x) s s1 ∧ (s1.g.dead = true ∨ s1.g.finiProcDone = true) := by
    intro s how hd ht
    obtain ⟨s1, hn, hg, ht1⟩ := step1 hd ht (by rfl)
    obtain ⟨s2, hr2, h2⟩ := two (by rw [hg]; exact hd) ht1
    exact ⟨s2, .step hw hn hr2, h2⟩
  have four : ∀ {s : S} {how : How}, Still K 2 s → s.g.dead = false →
      s.th w = .epBegin how :: rest →
      ∃ s1, Run (fun x => ¬ K x) s s1 ∧ (s1.g.dead = true ∨ s1.g.finiProcDone = true) := by
    intro s how hS hd ht
    obtain ⟨s1, hn, hg, ht1⟩ := step1 hd ht (by rfl)
    have hr1 : Run (fun x => ¬ K x) s s1 := .one hw hn
    obtain ⟨s2, hr2, h2⟩ := clear3 (still_run hS hr1) (by rw [hg]; exact hd) hw
      (pre := [.sd0]) (rest := .epFini0 how :: rest) (by rw [ht1]; rfl) (by
        intro f hf
        rw [List.mem_singleton.1 hf]; rfl)
    by_cases hd2 : s2.g.dead = true
    · exact ⟨s2, hr1.trans hr2, Or.inl hd2⟩
    · obtain ⟨s3, hr3, h3⟩ := three (by simpa using hd2) (h2.resolve_left hd2)
      exact ⟨s3, hr1.trans (hr2.trans hr3), h3⟩
  have five : ∀ {s : S} {how : How} {tn : Option NodeId}, Still K 2 s → s.g.dead = false →
      s.th w = .ep2 how tn :: rest →
      ∃ s1, Run (fun x => ¬ K x) s s1 ∧ (s1.g.dead = true ∨ s1.g.finiProcDone = true) := by
    intro s how tn hS hd ht
    cases tn with
    | none =>
      obtain ⟨s1, hn, hg, ht1⟩ := step1 hd ht (by rfl)
      have hr1 : Run (fun x => ¬ K x) s s1 := .one hw hn
      obtain ⟨s2, hr2, h2⟩ := four (still_run hS hr1) (by rw [hg]; exact hd) ht1
      exact ⟨s2, hr1.trans hr2, h2⟩
    | some n =>
      obtain ⟨s1, hn, hg, ht1⟩ := step1 hd ht (by rfl)
      have hr1 : Run (fun x => ¬ K x) s s1 := .one hw hn
      obtain ⟨s2, hr2, h2⟩ := four (still_run hS hr1) (by rw [hg]; exact hd) ht1
      exact ⟨s2, hr1.trans hr2, h2⟩
  have hS1 := still_run h hr1
  have key : ∃ s2, Run (fun x => ¬ K x) s1 s2 ∧ (s2.g.dead = true ∨ s2.g.finiProcDone = true) := by
    cases f0 with
    | ep2 how tn => exact five hS1 hd1 h1
    | epBegin how => exact four hS1 hd1 h1
    | epFini0 how => exact three hd1 h1
    | epFini how => exact two hd1 h1
    | epDone how w' => exact one hd1 h1
    | _ => simp [Frame.inEnd] at hi
  obtain ⟨s2, hr2, h2⟩ := key
  exact ⟨s2, hr1.trans hr2, h2⟩

end Libmonitor.Proc
