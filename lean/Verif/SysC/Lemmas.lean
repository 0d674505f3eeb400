import Verif.SysC.Spec

/-!
# Invariants for C46, C77, C78
-/

namespace Libmonitor.SysC

theorem weaken {A B : S → Lbl → Prop} (h : ∀ s l, A s l → B s l) {a0 : Sg → Act} {m0 : Tid → Mask} {s : S}
    (hs : ReachA A a0 m0 s) : ReachA B a0 m0 s := by
  induction hs with
  | init => exact .init
  | next _ ha hn ih => exact .next ih (h _ _ ha) hn

/-- The transitions. -/
inductive Move (s : S) : Lbl → S → Prop where
  | frame {t v f rest r} : s.th t = f :: rest → rest ≠ [] → fstep s.g t v f = some r →
      Move s (.go t v) { g := r.1, th := setTh s.th t (r.2 ++ rest) }
  | eintr {t} : Move s (.eintr t) s
  | system {t cb rest} : s.th t = .app :: rest →
      Move s (.system t cb)
        { g := { s.g.log t (.enter s.g.nextC cb) with nextC := s.g.nextC + 1 },
          th := setTh s.th t (.sys .pre { c := s.g.nextC, cb := cb } :: .app :: rest) }
  | appSet {t sg a rest} : s.th t = .app :: rest →
      Move s (.appSet t sg a) { s with g := (s.g.log t (.appSet sg a)).setAct sg a }
  | appMask {t m rest} : s.th t = .app :: rest → Move s (.appMask t m) { s with g := s.g.setMask t m }
  | fork {t rest} : s.th t = .app :: rest →
      Move s (.fork t) { g := s.g.log t .appFork, th := only t (.app :: rest) }
  | interrupt {t ex} : s.th t ≠ [] →
      Move s (.interrupt t ex)
        { g := s.g.setMask t (fun n => s.g.mask t n || ex n),
          th := setTh s.th t (.app :: .sigret (s.g.mask t) :: s.th t) }
  | unwind {t n m} : landing ((s.th t).drop n) = true →
      Move s (.unwind t n m) { g := s.g.setMask t m, th := setTh s.th t ((s.th t).drop n) }
  | child {t k rest} : s.th t = .sys .frk k :: rest →
      Move s (.child t) { g := s.g.log t (.born k.c), th := only t (.sys .ch1 k :: rest) }

theorem move_of_next {s s' : S} {l : Lbl} (h : next s l = some s') : s.g.dead = false ∧ Move s l s' := by
  unfold next at h
  split at h
  · simp at h
  rename_i hd
  refine ⟨by simpa using hd, ?_⟩
  cases l <;> simp only [] at h <;> split at h <;> try contradiction
  · rename_i f rest he
    split at h
    · simp at h
    · rename_i hne
      obtain ⟨r, hr, rfl⟩ := Option.map_eq_some_iff.mp h
      exact .frame he (by simpa using hne) hr
  · simp only [Option.some.injEq] at h
    subst h; exact .eintr
  · rename_i rest he
    simp only [Option.some.injEq] at h
    subst h; exact .system he
  · rename_i rest he
    simp only [Option.some.injEq] at h
    subst h; exact .appSet he
  · rename_i rest he
    simp only [Option.some.injEq] at h
    subst h; exact .appMask he
  · rename_i rest he
    simp only [Option.some.injEq] at h
    subst h; exact .fork he
  · rename_i hne
    simp only [Option.some.injEq] at h
    subst h; exact .interrupt hne
  · rename_i f rest he
    split at h
    · rename_i hc
      simp only [Bool.and_eq_true] at hc
      simp only [Option.some.injEq] at h
      subst h
      rw [← he] at hc ⊢
      exact .unwind hc.2
    · simp at h
  · rename_i k rest he
    simp only [Option.some.injEq] at h
    subst h; exact .child he

/-! ### What each call does -/

/-- What call `k` has done when it is at `p`. -/
def path (k : K) : Pc → List Ev
  | .pre => [.enter k.c k.cb]
  | .preRet => [.enter k.c k.cb, .preFork k.c]
  | .sv1 => .enter k.c k.cb :: ifCb k.cb [.preFork k.c, .preForkRet k.c k.d]
  | .sv2 => .enter k.c k.cb :: ifCb k.cb [.preFork k.c, .preForkRet k.c k.d] ++ [.save .int k.c k.oi]
  | .blk => .enter k.c k.cb :: ifCb k.cb [.preFork k.c, .preForkRet k.c k.d] ++
      [.save .int k.c k.oi, .save .quit k.c k.oq]
  | .frk => opening k.c k.cb k.d k.oi k.oq k.om
  | .wait => opening k.c k.cb k.d k.oi k.oq k.om ++ [.forked k.c k.pid]
  | .rs1 => opening k.c k.cb k.d k.oi k.oq k.om ++ [.forked k.c k.pid] ++
      if 0 < k.pid then [.waitEnd k.c k.st] else []
  | .rs2 => opening k.c k.cb k.d k.oi k.oq k.om ++ [.forked k.c k.pid] ++
      (if 0 < k.pid then [.waitEnd k.c k.st] else []) ++ [.restore .int k.c k.oi]
  | .rs3 => opening k.c k.cb k.d k.oi k.oq k.om ++ [.forked k.c k.pid] ++
      (if 0 < k.pid then [.waitEnd k.c k.st] else []) ++ [.restore .int k.c k.oi, .restore .quit k.c k.oq]
  | .post => opening k.c k.cb k.d k.oi k.oq k.om ++ [.forked k.c k.pid] ++
      (if 0 < k.pid then [.waitEnd k.c k.st] else []) ++ closing k.c k.oi k.oq k.om
  | .out => opening k.c k.cb k.d k.oi k.oq k.om ++ [.forked k.c k.pid] ++
      (if 0 < k.pid then [.waitEnd k.c k.st] else []) ++ closing k.c k.oi k.oq k.om ++
      ifCb k.cb [.postFork k.c k.pid k.d]
  | .ch1 => opening k.c k.cb k.d k.oi k.oq k.om ++ [.born k.c]
  | .ch2 => opening k.c k.cb k.d k.oi k.oq k.om ++ [.born k.c, .restore .int k.c k.oi]
  | .ch3 => opening k.c k.cb k.d k.oi k.oq k.om ++
      [.born k.c, .restore .int k.c k.oi, .restore .quit k.c k.oq]
  | .exc => opening k.c k.cb k.d k.oi k.oq k.om ++ [.born k.c] ++ closing k.c k.oi k.oq k.om
  | .ex127 => []

/-- What is known of the variables. -/
def ok (k : K) : Pc → Prop
  | .preRet => k.cb = true
  | .wait => 0 < k.pid
  | .rs1 | .rs2 | .rs3 | .post | .out => 0 < k.pid ∨ (k.pid < 0 ∧ k.st = -1)
  | _ => True

/-- The history of call `k`, at `p`, by thread `t`. -/
def Told (tr : Hist) (t : Tid) (p : Pc) (k : K) : Prop :=
  ok k p ∧
  if p = .ex127 then ∃ ai aq am, ofCall k.c tr = ((path k .exc) ++ [Ev.exec k.c k.cb ai aq am]).map (t, ·)
  else ofCall k.c tr = (path k p).map (t, ·)

/-- Every call does its script, as far as it goes. -/
def Scripted (c : Nat) (h : Hist) : Prop := ∃ t sc, Script c sc ∧ h <+: sc.map (t, ·)

theorem scripted_of {c : Nat} {t : Tid} {l sc : List Ev} (h : Script c sc) (hl : l <+: sc) :
    Scripted c (l.map (t, ·)) := ⟨t, sc, h, hl.map _⟩

theorem scripted_path {k : K} {t : Tid} {p : Pc} (hk : ok k p) : Scripted k.c ((path k p).map (t, ·)) := by
  have hc : ∀ ai aq am, Script k.c (opening k.c k.cb k.d k.oi k.oq k.om ++ [.born k.c] ++
      closing k.c k.oi k.oq k.om ++ [.exec k.c k.cb ai aq am, .exit127 k.c]) :=
    fun ai aq am => .child k.cb k.d k.oi k.oq k.om ai aq am
  have hp : ∀ (pid st : Int), 0 < pid → Script k.c _ :=
    fun pid st h => .parent k.cb k.d k.oi k.oq k.om pid st h
  have hf : ∀ pid : Int, pid < 0 → Script k.c _ := fun pid h => .failed k.cb k.d k.oi k.oq k.om pid h
  cases p
  case pre => exact scripted_of (hc 0 0 k.om) ⟨_, by simp [path, opening]; rfl⟩
  case preRet =>
    simp only [ok] at hk
    exact scripted_of (hc 0 0 k.om) ⟨_, by simp [path, opening, hk, ifCb]; rfl⟩
  case sv1 => exact scripted_of (hc 0 0 k.om) ⟨_, by simp [path, opening]; rfl⟩
  case sv2 => exact scripted_of (hc 0 0 k.om) ⟨_, by simp [path, opening]; rfl⟩
  case blk => exact scripted_of (hc 0 0 k.om) ⟨_, by simp [path, opening]; rfl⟩
  case frk => exact scripted_of (hc 0 0 k.om) ⟨_, by simp [path]; rfl⟩
  case ch1 => exact scripted_of (hc 0 0 k.om) ⟨_, by simp [path]; rfl⟩
  case ch2 => exact scripted_of (hc 0 0 k.om) ⟨_, by simp [path, closing]; rfl⟩
  case ch3 => exact scripted_of (hc 0 0 k.om) ⟨_, by simp [path, closing]; rfl⟩
  case exc => exact scripted_of (hc 0 0 k.om) ⟨_, by simp [path]; rfl⟩
  case ex127 => exact scripted_of (hc 0 0 k.om) ⟨_, by simp [path]; rfl⟩
  case wait =>
    simp only [ok] at hk
    exact scripted_of (hp k.pid 0 hk) ⟨_, by simp [path]; rfl⟩
  all_goals
    simp only [ok] at hk
    rcases hk with hk | ⟨hk, hs⟩
    · exact scripted_of (hp k.pid k.st hk) ⟨_, by simp [path, hk, closing]; rfl⟩
    · have hn : ¬ 0 < k.pid := by omega
      exact scripted_of (hf k.pid hk) ⟨_, by simp [path, hn, closing]; rfl⟩

theorem ofCall_cons {c : Nat} {t : Tid} {e : Ev} {tr : Hist} :
    ofCall c ((t, e) :: tr) = if e.call = some c then ofCall c tr ++ [(t, e)] else ofCall c tr := by
  by_cases h : e.call = some c <;> simp [ofCall, h]

theorem ofCall_same {c : Nat} {t : Tid} {e : Ev} {tr : Hist} (h : e.call = some c) :
    ofCall c ((t, e) :: tr) = ofCall c tr ++ [(t, e)] := by
  simp [ofCall, h]

theorem ofCall_other {c : Nat} {t : Tid} {e : Ev} {tr : Hist} (h : e.call ≠ some c) :
    ofCall c ((t, e) :: tr) = ofCall c tr := by
  simp [ofCall, h]

/-- A step of call `k`: it goes on, or it is over. -/
structure Stepped (g g' : G) (t : Tid) (k : K) (fs : List Frame) : Prop where
  tr : g'.tr = g.tr ∨ ∃ e, e.call = some k.c ∧ g'.tr = (t, e) :: g.tr
  nextC : g'.nextC = g.nextC
  told : fs = [] ∨ ∃ p' k', (fs = [.sys p' k'] ∨ fs = [.app, .sys p' k']) ∧ k'.c = k.c ∧ Told g'.tr t p' k'
  scripted : Scripted k.c (ofCall k.c g'.tr)

theorem told_scripted {tr : Hist} {t : Tid} {p : Pc} {k : K} (h : Told tr t p k) :
    Scripted k.c (ofCall k.c tr) := by
  obtain ⟨hk, h⟩ := h
  split at h
  · obtain ⟨ai, aq, am, h⟩ := h
    rw [h]
    exact scripted_of (.child k.cb k.d k.oi k.oq k.om ai aq am) ⟨[.exit127 k.c], by simp [path]⟩
  · rw [h]; exact scripted_path hk

theorem sstep_told {g g' : G} {t : Tid} {v : Int} {k : K} {p : Pc} {fs : List Frame}
    (h : sstep g t v k p = some (g', fs)) (ht : Told g.tr t p k) : Stepped g g' t k fs := by
  obtain ⟨hk, ht⟩ := ht
  have mk : ∀ p' k', (fs = [.sys p' k'] ∨ fs = [.app, .sys p' k']) → k'.c = k.c → Told g'.tr t p' k' →
      (g'.tr = g.tr ∨ ∃ e, e.call = some k.c ∧ g'.tr = (t, e) :: g.tr) → g'.nextC = g.nextC →
      Stepped g g' t k fs := by
    intro p' k' h1 h2 h3 h4 h5
    exact ⟨h4, h5, .inr ⟨p', k', h1, h2, h3⟩, by have := told_scripted h3; rwa [h2] at this⟩
  cases p <;> simp only [sstep] at h <;> simp only [ok] at hk <;> simp only [reduceCtorEq, if_false, if_true] at ht
  case pre =>
    split at h <;> rename_i hcb <;> simp only [Option.some.injEq, Prod.mk.injEq] at h <;> obtain ⟨rfl, rfl⟩ := h
    · refine mk _ _ (.inr rfl) rfl ⟨hcb, ?_⟩ (.inr ⟨_, rfl, rfl⟩) rfl
      simp [G.log, ofCall_cons, Ev.call, ht, path]
    · refine mk _ _ (.inl rfl) rfl ⟨trivial, ?_⟩ (.inl rfl) rfl
      simp [ht, path, ifCb, hcb]
  case frk =>
    split at h
    · simp at h
    split at h <;> rename_i hv <;> simp only [Option.some.injEq, Prod.mk.injEq] at h <;> obtain ⟨rfl, rfl⟩ := h
    · refine mk _ _ (.inl rfl) rfl ⟨.inr ⟨hv, rfl⟩, ?_⟩ (.inr ⟨_, rfl, rfl⟩) rfl
      have hn : ¬ 0 < v := by omega
      simp [G.log, ofCall_cons, Ev.call, ht, path, hn]
    · refine mk _ _ (.inl rfl) rfl ⟨by simp only [ok]; omega, ?_⟩ (.inr ⟨_, rfl, rfl⟩) rfl
      simp [G.log, ofCall_cons, Ev.call, ht, path]
  case post =>
    split at h <;> rename_i hcb <;> simp only [Option.some.injEq, Prod.mk.injEq] at h <;> obtain ⟨rfl, rfl⟩ := h
    · refine mk _ _ (.inr rfl) rfl ⟨hk, ?_⟩ (.inr ⟨_, rfl, rfl⟩) rfl
      simp [G.log, ofCall_cons, Ev.call, ht, path, hcb, ifCb]
    · refine mk _ _ (.inl rfl) rfl ⟨hk, ?_⟩ (.inl rfl) rfl
      simp [ht, path, ifCb, hcb]
  case out =>
    simp only [Option.some.injEq, Prod.mk.injEq] at h; obtain ⟨rfl, rfl⟩ := h
    refine ⟨.inr ⟨_, rfl, rfl⟩, rfl, .inl rfl, ?_⟩
    have he : ofCall k.c (g.log t (.ret k.c k.st)).tr = (path k .out ++ [Ev.ret k.c k.st]).map (t, ·) := by
      simp [G.log, ofCall_cons, Ev.call, ht]
    rw [he]
    rcases hk with hk | ⟨hk, hs⟩
    · exact scripted_of (.parent k.cb k.d k.oi k.oq k.om k.pid k.st hk) ⟨[], by simp [path, hk]⟩
    · have hn : ¬ 0 < k.pid := by omega
      exact scripted_of (.failed k.cb k.d k.oi k.oq k.om k.pid hk) ⟨[], by simp [path, hn, hs]⟩
  case exc =>
    split at h <;> rename_i hv <;> simp only [Option.some.injEq, Prod.mk.injEq] at h <;> obtain ⟨rfl, rfl⟩ := h
    · refine ⟨.inr ⟨_, rfl, rfl⟩, rfl, .inl rfl, ?_⟩
      have := @told_scripted (g.log t (.exec k.c k.cb (g.act .int) (g.act .quit) (g.mask t))).tr t .ex127 k
        ⟨trivial, by simp only [if_true]; exact ⟨g.act .int, g.act .quit, g.mask t, by simp [G.log, ofCall_cons, Ev.call, ht]⟩⟩
      exact this
    · refine mk _ _ (.inl rfl) rfl ⟨trivial, ?_⟩ (.inr ⟨_, rfl, rfl⟩) rfl
      simp only [if_true]
      exact ⟨g.act .int, g.act .quit, g.mask t, by simp [G.log, ofCall_cons, Ev.call, ht]⟩
  case ex127 =>
    simp only [Option.some.injEq, Prod.mk.injEq] at h; obtain ⟨rfl, rfl⟩ := h
    refine ⟨.inr ⟨_, rfl, rfl⟩, rfl, .inl rfl, ?_⟩
    obtain ⟨ai, aq, am, ht⟩ := ht
    have he : ofCall k.c (g.log t (.exit127 k.c)).tr =
        (path k .exc ++ [Ev.exec k.c k.cb ai aq am, .exit127 k.c]).map (t, ·) := by
      simp [G.log, ofCall_cons, Ev.call, ht]
    have hs := @scripted_of k.c t _ _ (.child k.cb k.d k.oi k.oq k.om ai aq am)
      ⟨[], by simp; rfl⟩
    exact (congrArg (Scripted k.c) he).mpr (by simpa [path] using hs)
  all_goals
    simp only [Option.some.injEq, Prod.mk.injEq] at h; obtain ⟨rfl, rfl⟩ := h
    refine mk _ _ (.inl rfl) rfl ⟨?_, ?_⟩ (.inr ⟨_, rfl, rfl⟩) rfl
    · first | trivial | exact hk | exact .inl hk
    · simp [G.log, G.setAct, G.setMask, ofCall_cons, Ev.call, ht, path, opening, closing, ifCb, hk]

/-- The calls that a thread is in. -/
def Frame.id : Frame → Option Nat
  | .sys _ k => some k.c
  | _ => none

def ids (l : List Frame) : List Nat := l.filterMap Frame.id

theorem ids_nil : ids [] = [] := rfl
theorem ids_app {l : List Frame} : ids (.app :: l) = ids l := rfl
theorem ids_sigret {m : Mask} {l : List Frame} : ids (.sigret m :: l) = ids l := rfl
theorem ids_sys {p : Pc} {k : K} {l : List Frame} : ids (.sys p k :: l) = k.c :: ids l := rfl

structure Inv (s : S) : Prop where
  told : ∀ t p k, .sys p k ∈ s.th t → Told s.g.tr t p k
  scripted : ∀ c, Scripted c (ofCall c s.g.tr)
  nodup : ∀ t, (ids (s.th t)).Nodup
  apart : ∀ t u c, c ∈ ids (s.th t) → c ∈ ids (s.th u) → t = u
  below : ∀ t c, c ∈ ids (s.th t) → c < s.g.nextC
  bound : ∀ x ∈ s.g.tr, ∀ c, x.2.call = some c → c < s.g.nextC

theorem mem_ids {l : List Frame} {p : Pc} {k : K} (h : .sys p k ∈ l) : k.c ∈ ids l :=
  List.mem_filterMap.mpr ⟨_, h, rfl⟩

theorem told_other {tr : Hist} {t u : Tid} {p : Pc} {k : K} {e : Ev} (h : Told tr t p k)
    (he : e.call ≠ some k.c) : Told ((u, e) :: tr) t p k := by
  unfold Told at h ⊢
  rw [ofCall_other he]; exact h

/-- Steps that are not about a call. -/
theorem inv_quiet {s s' : S} (hi : Inv s)
    (htr : s'.g.tr = s.g.tr ∨ ∃ t e, e.call = none ∧ s'.g.tr = (t, e) :: s.g.tr)
    (hn : s'.g.nextC = s.g.nextC)
    (hth : ∀ u, (ids (s'.th u)).Sublist (ids (s.th u)) ∧ ∀ p k, .sys p k ∈ s'.th u → .sys p k ∈ s.th u) :
    Inv s' := by
  have hof : ∀ c, ofCall c s'.g.tr = ofCall c s.g.tr := by
    intro c
    rcases htr with h | ⟨t, e, he, h⟩
    · rw [h]
    · rw [h, ofCall_other (by simp [he])]
  refine ⟨?_, ?_, ?_, ?_, ?_, ?_⟩
  · intro t p k h
    have := hi.told t p k ((hth t).2 p k h)
    unfold Told at this ⊢
    rw [hof]; exact this
  · intro c; rw [hof]; exact hi.scripted c
  · intro t; exact (hi.nodup t).sublist (hth t).1
  · intro t u c h h'; exact hi.apart t u c ((hth t).1.subset h) ((hth u).1.subset h')
  · intro t c h; rw [hn]; exact hi.below t c ((hth t).1.subset h)
  · intro x hx c hc
    rw [hn]
    rcases htr with h | ⟨t, e, he, h⟩ <;> rw [h] at hx
    · exact hi.bound x hx c hc
    · rcases List.mem_cons.mp hx with rfl | hx
      · simp [he] at hc
      · exact hi.bound x hx c hc

/-- Steps of a call. -/
theorem inv_call {s s' : S} (hi : Inv s) {t : Tid} {p : Pc} {k : K} {rest fs : List Frame}
    (he : s.th t = .sys p k :: rest) (hs : Stepped s.g s'.g t k fs) (ht : s'.th t = fs ++ rest)
    (ho : ∀ u, u ≠ t → s'.th u = s.th u ∨ s'.th u = []) : Inv s' := by
  have hmem : k.c ∈ ids (s.th t) := by rw [he]; exact mem_ids (List.mem_cons_self)
  have hnd := hi.nodup t
  rw [he] at hnd
  simp only [ids, List.filterMap_cons, Frame.id, List.nodup_cons] at hnd
  have hfs : (ids fs).Sublist [k.c] := by
    rcases hs.told with rfl | ⟨p', k', rfl | rfl, hk, _⟩ <;> simp [ids_nil, ids_app, ids_sys, *]
  have hsub : ∀ u, (ids (s'.th u)).Sublist (ids (s.th u)) := by
    intro u
    by_cases hu : u = t
    · subst hu
      rw [ht, he]
      have : ids (fs ++ rest) = ids fs ++ ids rest := by simp [ids]
      rw [this]
      have h2 : ids (.sys p k :: rest) = [k.c] ++ ids rest := by simp [ids, Frame.id]
      rw [h2]
      exact hfs.append (List.Sublist.refl _)
    · rcases ho u hu with h | h <;> rw [h]
      · exact List.Sublist.refl _
      · simp [ids]
  have hof : ∀ c, c ≠ k.c → ofCall c s'.g.tr = ofCall c s.g.tr := by
    intro c hc
    rcases hs.tr with h | ⟨e, hec, h⟩
    · rw [h]
    · rw [h, ofCall_other (by rw [hec]; simpa using fun h => hc h.symm)]
  refine ⟨?_, ?_, ?_, ?_, ?_, ?_⟩
  · intro u q j hq
    have old : .sys q j ∈ s.th u → j.c ≠ k.c → Told s'.g.tr u q j := by
      intro h hne
      have := hi.told u q j h
      unfold Told at this ⊢
      rw [hof _ hne]; exact this
    by_cases hu : u = t
    · subst hu
      rw [ht] at hq
      rcases List.mem_append.mp hq with hq | hq
      · rcases hs.told with rfl | ⟨p', k', hf, _, hk⟩
        · simp at hq
        · have : Frame.sys q j = .sys p' k' := by
            rcases hf with rfl | rfl
            · simpa using hq
            · simpa using hq
          cases this; exact hk
      · exact old (by rw [he]; exact List.mem_cons_of_mem _ hq) fun h => hnd.1 (h ▸ mem_ids hq)
    · rcases ho u hu with h | h <;> rw [h] at hq
      · exact old hq fun h' => hu (hi.apart u t k.c (h' ▸ mem_ids hq) hmem)
      · simp at hq
  · intro c
    by_cases hc : c = k.c
    · rw [hc]; exact hs.scripted
    · rw [hof c hc]; exact hi.scripted c
  · intro u; exact (hi.nodup u).sublist (hsub u)
  · intro u w c h h'; exact hi.apart u w c ((hsub u).subset h) ((hsub w).subset h')
  · intro u c h; rw [hs.nextC]; exact hi.below u c ((hsub u).subset h)
  · intro x hx c hc
    rw [hs.nextC]
    rcases hs.tr with h | ⟨e, hec, h⟩ <;> rw [h] at hx
    · exact hi.bound x hx c hc
    · rcases List.mem_cons.mp hx with rfl | hx
      · rw [hec] at hc; cases hc; exact hi.below t _ hmem
      · exact hi.bound x hx c hc

theorem setTh_same {th : Tid → List Frame} {t : Tid} {l : List Frame} : setTh th t l t = l := by
  simp [setTh]
theorem setTh_other {th : Tid → List Frame} {t u : Tid} {l : List Frame} (h : u ≠ t) :
    setTh th t l u = th u := by
  simp [setTh, h]

theorem inv_step {s s' : S} {l : Lbl} (hi : Inv s) (hm : Move s l s') : Inv s' := by
  cases hm with
  | @frame t v f rest r he hne hf =>
    cases f with
    | app =>
      simp only [fstep, Option.some.injEq] at hf; subst hf
      refine inv_quiet hi (.inl rfl) rfl fun u => ?_
      by_cases hu : u = t
      · subst hu; simp only [setTh_same, he]
        exact ⟨by simp [ids_app], fun p k h => List.mem_cons_of_mem _ (by simpa using h)⟩
      · simp only [setTh_other hu]; exact ⟨.refl _, fun _ _ h => h⟩
    | sigret m =>
      simp only [fstep, Option.some.injEq] at hf; subst hf
      refine inv_quiet hi (.inl rfl) rfl fun u => ?_
      by_cases hu : u = t
      · subst hu; simp only [setTh_same, he]
        exact ⟨by simp [ids_sigret], fun p k h => List.mem_cons_of_mem _ (by simpa using h)⟩
      · simp only [setTh_other hu]; exact ⟨.refl _, fun _ _ h => h⟩
    | sys p k =>
      obtain ⟨g', fs⟩ := r
      exact inv_call hi he (sstep_told hf (hi.told t p k (by simp [he]))) setTh_same
        fun u hu => .inl (setTh_other hu)
  | eintr => exact hi
  | @system t cb rest he =>
    have hfresh : ∀ u, s.g.nextC ∉ ids (s.th u) := fun u h => Nat.lt_irrefl _ (hi.below u _ h)
    have hnone : ofCall s.g.nextC s.g.tr = [] := by
      simp only [ofCall, List.reverse_eq_nil_iff, List.filter_eq_nil_iff]
      intro x hx h
      exact Nat.lt_irrefl _ (hi.bound x hx _ (by simpa using h))
    have htr : ofCall s.g.nextC ((t, Ev.enter s.g.nextC cb) :: s.g.tr) = [(t, .enter s.g.nextC cb)] := by
      simp [ofCall_cons, Ev.call, hnone]
    refine ⟨?_, ?_, ?_, ?_, ?_, ?_⟩
    · intro u p k h
      have old : .sys p k ∈ s.th u → Told ((t, Ev.enter s.g.nextC cb) :: s.g.tr) u p k := fun h =>
        told_other (hi.told u p k h) fun hc => hfresh u (by
          simp only [Ev.call, Option.some.injEq] at hc; rw [hc]; exact mem_ids h)
      by_cases hu : u = t
      · subst hu
        simp only [setTh_same] at h
        rcases List.mem_cons.mp h with h | h
        · cases h
          exact ⟨trivial, by simpa [path, G.log] using htr⟩
        · exact old (by rw [he]; exact h)
      · simp only [setTh_other hu] at h; exact old h
    · intro c
      by_cases hc : c = s.g.nextC
      · subst hc
        refine (congrArg (Scripted s.g.nextC) htr).mpr ?_
        exact @scripted_path { c := s.g.nextC, cb := cb } t .pre trivial
      · have := hi.scripted c
        refine (congrArg (Scripted c) (ofCall_other ?_)).mpr this
        simpa [Ev.call] using fun h => hc h.symm
    · intro u
      by_cases hu : u = t
      · subst hu
        simp only [setTh_same]
        have := hi.nodup u
        have hf := hfresh u
        rw [he] at this hf
        simp only [ids, List.filterMap_cons, Frame.id] at this hf ⊢
        exact List.nodup_cons.mpr ⟨hf, this⟩
      · simp only [setTh_other hu]; exact hi.nodup u
    · have key : ∀ u c, c ∈ ids (setTh s.th t (.sys .pre { c := s.g.nextC, cb := cb } :: .app :: rest) u) →
          (c = s.g.nextC ∧ u = t) ∨ c ∈ ids (s.th u) := by
        intro u c h
        by_cases hu : u = t
        · subst hu
          rw [setTh_same] at h
          simp only [ids, List.filterMap_cons, Frame.id, List.mem_cons] at h
          rcases h with h | h
          · exact .inl ⟨h, rfl⟩
          · right; rw [he]; simpa [ids, Frame.id] using h
        · rw [setTh_other hu] at h; exact .inr h
      intro u w c h h'
      rcases key u c h with ⟨rfl, rfl⟩ | hh
      · rcases key w _ h' with ⟨_, rfl⟩ | h'
        · rfl
        · exact absurd h' (hfresh w)
      · rcases key w c h' with ⟨rfl, rfl⟩ | h'
        · exact absurd hh (hfresh u)
        · exact hi.apart u w c hh h'
    · intro u c h
      by_cases hu : u = t
      · subst hu
        simp only [setTh_same, ids, List.filterMap_cons, Frame.id, List.mem_cons] at h
        rcases h with rfl | h
        · exact Nat.lt_succ_self _
        · exact Nat.lt_succ_of_lt (hi.below u c (by rw [he]; simpa [ids, Frame.id] using h))
      · simp only [setTh_other hu] at h
        exact Nat.lt_succ_of_lt (hi.below u c h)
    · intro x hx c hc
      simp only [G.log, List.mem_cons] at hx
      rcases hx with rfl | hx
      · simp only [Ev.call, Option.some.injEq] at hc; subst hc; exact Nat.lt_succ_self _
      · exact Nat.lt_succ_of_lt (hi.bound x hx c hc)
  | appSet he => exact inv_quiet hi (.inr ⟨_, _, rfl, rfl⟩) rfl fun u => ⟨.refl _, fun _ _ h => h⟩
  | appMask he => exact inv_quiet hi (.inl rfl) rfl fun u => ⟨.refl _, fun _ _ h => h⟩
  | @fork t rest he =>
    refine inv_quiet hi (.inr ⟨_, _, rfl, rfl⟩) rfl fun u => ?_
    simp only [only]
    split
    · rename_i hu; subst hu; rw [he]; exact ⟨.refl _, fun _ _ h => h⟩
    · exact ⟨by simp [ids], fun p k h => by simp at h⟩
  | @interrupt t ex hne =>
    refine inv_quiet hi (.inl rfl) rfl fun u => ?_
    by_cases hu : u = t
    · subst hu; simp only [setTh_same]
      exact ⟨by simp [ids_app, ids_sigret], fun p k h => by simpa using h⟩
    · simp only [setTh_other hu]; exact ⟨.refl _, fun _ _ h => h⟩
  | @unwind t n m hl =>
    refine inv_quiet hi (.inl rfl) rfl fun u => ?_
    by_cases hu : u = t
    · subst hu; simp only [setTh_same]
      exact ⟨(List.drop_sublist _ _).filterMap _, fun p k h => List.mem_of_mem_drop h⟩
    · simp only [setTh_other hu]; exact ⟨.refl _, fun _ _ h => h⟩
  | @child t k rest he =>
    have ht := hi.told t .frk k (by simp [he])
    have hT : Told ((t, Ev.born k.c) :: s.g.tr) t .ch1 k := by
      refine ⟨trivial, ?_⟩
      have := ht.2
      simp only [reduceCtorEq, if_false] at this ⊢
      simp [ofCall_cons, Ev.call, this, path]
    exact inv_call hi he (fs := [.sys .ch1 k])
      ⟨.inr ⟨_, rfl, rfl⟩, rfl, .inr ⟨_, _, .inl rfl, rfl, hT⟩, told_scripted hT⟩
      (by simp [only]) fun u hu => .inr (by simp [only, hu])

theorem inv_of {A : S → Lbl → Prop} {a0 : Sg → Act} {m0 : Tid → Mask} {s : S} (hs : ReachA A a0 m0 s) :
    Inv s := by
  induction hs with
  | init =>
    refine ⟨fun t p k h => by simp at h, fun c => ?_, fun t => by simp [ids_app, ids_nil],
      fun t u c h => by simp [ids_app, ids_nil] at h, fun t c h => by simp [ids_app, ids_nil] at h,
      fun x hx => by simp at hx⟩
    exact ⟨0, _, .child true 0 0 0 (fun _ => false) 0 0 (fun _ => false), by simp [ofCall]⟩
  | next _ _ hn ih => exact inv_step ih (move_of_next hn).2

end Libmonitor.SysC
