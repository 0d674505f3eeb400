import Verif.Proc.Spec
/-!
# Inversion of steps and generic invariants
-/

namespace Libmonitor.Proc

/-- The frame whose thread has its cleanup routine pushed. -/
def Frame.armed : Frame → Option NodeId
  | .bt3 n | .btInit n | .bt4 n | .bt5 n | .btApp n => some n
  | _ => none

theorem unwound_cases (l : List Frame) :
    unwound l = [.tdtor] ∨
      ∃ f n, f ∈ l ∧ f.armed = some n ∧ unwound l = [.cl0 n, .tdtor] := by
  unfold unwound
  cases h : l.getLast? with
  | none => exact Or.inl rfl
  | some f =>
    have hm := List.mem_of_getLast? h
    cases f <;> first | exact Or.inl rfl | exact Or.inr ⟨_, _, hm, rfl, rfl⟩

/-- What a step can do. -/
inductive Move (s : S) : Lbl → S → Prop
  | go {t : Tid} {f : Frame} {rest : List Frame} {ok : Bool} {v : Nat} {r : Res}
      (hd : s.g.dead = false) (ht : s.th t = f :: rest) (hf : fstep s.g t ok v f = some r) :
      Move s (.step t (.go ok v)) (applyRes s t rest r)
  | call {t : Tid} {f : Frame} {rest : List Frame} (a : Api)
      (hd : s.g.dead = false) (ht : s.th t = f :: rest) (hf : f.foreign = true) :
      Move s (.step t (.call a)) { s with th := setTh s.th t (a.frames ++ f :: rest) }
  | unwind {t : Tid} {f : Frame} {rest : List Frame}
      (hd : s.g.dead = false) (ht : s.th t = f :: rest) (hf : f.foreign = true) :
      Move s (.step t .unwind) { s with th := setTh s.th t (unwound (f :: rest)) }
  | deliver {t : Tid} {f : Frame} {rest : List Frame}
      (hd : s.g.dead = false) (ht : s.th t = f :: rest) (hon : s.g.handlerOn = true)
      (hh : (f :: rest).any Frame.isH = false) :
      Move s (.step t .deliver) { s with th := setTh s.th t (.h0 :: f :: rest) }
  | interrupt {t : Tid} {f : Frame} {rest : List Frame}
      (hd : s.g.dead = false) (ht : s.th t = f :: rest) :
      Move s (.step t .interrupt) { s with th := setTh s.th t (.app :: f :: rest) }
  | fork {t : Tid} {c : Nat} {d : Data} {rest : List Frame}
      (hd : s.g.dead = false) (ht : s.th t = .fkReal c d :: rest) :
      Move s (.fork t)
        { g := s.g.emit t (.forked false),
          th := setTh (fun _ => []) t (.bp0 true d :: .fkChild c :: rest) }
  | realFork {t : Tid} {rest : List Frame}
      (hd : s.g.dead = false) (ht : s.th t = .rf :: rest) :
      Move s (.fork t)
        { g := s.g.emit t (.forked true), th := setTh (fun _ => []) t (.rfReset :: rest) }

theorem move_of_next {s s' : S} {l : Lbl} (h : next s l = some s') : Move s l s' := by
  cases l with
  | fork t =>
    simp only [next, child] at h
    split at h
    · cases h
    · rename_i hd
      have hd : s.g.dead = false := by simpa using hd
      split at h
      · rename_i c d rest ht
        injection h with h; subst h; exact .fork hd ht
      · rename_i rest ht
        injection h with h; subst h; exact .realFork hd ht
      · cases h
  | step t i =>
    simp only [next, step] at h
    split at h
    · cases h
    · rename_i hd
      have hd : s.g.dead = false := by simpa using hd
      split at h
      · cases h
      · rename_i f rest ht
        cases i with
        | go ok v =>
          simp only [Option.map_eq_some_iff] at h
          obtain ⟨r, hr, rfl⟩ := h
          exact .go hd ht hr
        | call a =>
          simp only at h
          split at h
          · rename_i hf
            injection h with h; subst h; exact .call a hd ht hf
          · cases h
        | unwind =>
          simp only at h
          split at h
          · rename_i hf
            injection h with h; subst h; exact .unwind hd ht hf
          · cases h
        | deliver =>
          simp only at h
          split at h
          · rename_i hc
            rw [Bool.and_eq_true, Bool.not_eq_true'] at hc
            injection h with h; subst h; exact .deliver hd ht hc.1 hc.2
          · cases h
        | interrupt =>
          simp only at h
          injection h with h; subst h; exact .interrupt hd ht

theorem setTh_self (th : Tid → List Frame) (t : Tid) (l : List Frame) : setTh th t l t = l := by
  simp [setTh]

theorem setTh_ne (th : Tid → List Frame) {t u : Tid} (l : List Frame) (h : u ≠ t) :
    setTh th t l u = th u := by
  simp [setTh, h]

/-- A schedule that runs is an execution. -/
theorem reach_of_run {A : S → Lbl → Prop} {s s' : S} {ls : List Lbl} (hs : ReachA A s)
    (hA : ∀ s l, A s l) (h : run s ls = some s') : ReachA A s' := by
  induction ls generalizing s with
  | nil => simp only [run] at h; injection h with h; exact h ▸ hs
  | cons l ls ih =>
    simp only [run, Option.bind_eq_some_iff] at h
    obtain ⟨s1, h1, h2⟩ := h
    exact ih (.next hs (hA _ _) h1) h2

/-- A schedule whose final state passes a test gives a reachable state passing the test. -/
theorem exists_of_run {ls : List Lbl} {p : S → Bool}
    (h : ((run {} ls).map p).getD false = true) : ∃ s, Reach s ∧ p s = true := by
  cases hr : run {} ls with
  | none => rw [hr] at h; exact absurd h (by simp)
  | some s =>
    rw [hr] at h
    exact ⟨s, reach_of_run .init (fun _ _ => trivial) hr, by simpa using h⟩

/-- Running a schedule all of whose labels are allowed. -/
def runA (A : S → Lbl → Prop) [∀ s l, Decidable (A s l)] : S → List Lbl → Option S
  | s, [] => some s
  | s, l :: ls => if A s l then (next s l).bind (fun s' => runA A s' ls) else none

theorem reach_of_runA {A : S → Lbl → Prop} [∀ s l, Decidable (A s l)] {s s' : S} {ls : List Lbl}
    (hs : ReachA A s) (h : runA A s ls = some s') : ReachA A s' := by
  induction ls generalizing s with
  | nil => simp only [runA] at h; injection h with h; exact h ▸ hs
  | cons l ls ih =>
    simp only [runA] at h
    split at h
    · rename_i hA
      simp only [Option.bind_eq_some_iff] at h
      obtain ⟨s1, h1, h2⟩ := h
      exact ih (.next hs hA h1) h2
    · cases h

theorem exists_of_runA {A : S → Lbl → Prop} [∀ s l, Decidable (A s l)] {ls : List Lbl}
    {p : S → Bool} (h : ((runA A {} ls).map p).getD false = true) :
    ∃ s, ReachA A s ∧ p s = true := by
  cases hr : runA A {} ls with
  | none => rw [hr] at h; exact absurd h (by simp)
  | some s =>
    rw [hr] at h
    exact ⟨s, reach_of_runA .init hr, by simpa using h⟩

/-- Restricted executions are executions. -/
theorem reach_of_reachA {A : S → Lbl → Prop} {s : S} (h : ReachA A s) : Reach s := by
  induction h with
  | init => exact .init
  | next _ _ hn ih => exact .next ih trivial hn

@[simp] theorem resetList_initCalled (g : G) (t : Tid) : (resetList g t).initCalled = g.initCalled := by
  unfold resetList; split <;> rfl
@[simp] theorem resetList_beginLibRun (g : G) (t : Tid) : (resetList g t).beginLibRun = g.beginLibRun := by
  unfold resetList; split <;> rfl
@[simp] theorem resetList_finiLibCalled (g : G) (t : Tid) : (resetList g t).finiLibCalled = g.finiLibCalled := by
  unfold resetList; split <;> rfl
@[simp] theorem resetList_finiProcDone (g : G) (t : Tid) : (resetList g t).finiProcDone = g.finiProcDone := by
  unfold resetList; split <;> rfl
@[simp] theorem resetList_cookie (g : G) (t : Tid) : (resetList g t).cookie = g.cookie := by
  unfold resetList; split <;> rfl
@[simp] theorem resetList_supportDone (g : G) (t : Tid) : (resetList g t).supportDone = g.supportDone := by
  unfold resetList; split <;> rfl
@[simp] theorem resetList_inExit (g : G) (t : Tid) : (resetList g t).inExit = g.inExit := by
  unfold resetList; split <;> rfl
@[simp] theorem resetList_finiThreadDone (g : G) (t : Tid) : (resetList g t).finiThreadDone = g.finiThreadDone := by
  unfold resetList; split <;> rfl
@[simp] theorem resetList_handlerOn (g : G) (t : Tid) : (resetList g t).handlerOn = g.handlerOn := by
  unfold resetList; split <;> rfl
@[simp] theorem resetList_lock (g : G) (t : Tid) : (resetList g t).lock = g.lock := by
  unfold resetList; split <;> rfl
@[simp] theorem resetList_num (g : G) (t : Tid) : (resetList g t).num = g.num := by
  unfold resetList; split <;> rfl
@[simp] theorem resetList_arr (g : G) (t : Tid) : (resetList g t).arr = g.arr := by
  unfold resetList; split <;> rfl
@[simp] theorem resetList_nArr (g : G) (t : Tid) : (resetList g t).nArr = g.nArr := by
  unfold resetList; split <;> rfl
@[simp] theorem resetList_nextTid (g : G) (t : Tid) : (resetList g t).nextTid = g.nextTid := by
  unfold resetList; split <;> rfl
@[simp] theorem resetList_nextCall (g : G) (t : Tid) : (resetList g t).nextCall = g.nextCall := by
  unfold resetList; split <;> rfl
@[simp] theorem resetList_dead (g : G) (t : Tid) : (resetList g t).dead = g.dead := by
  unfold resetList; split <;> rfl
@[simp] theorem resetList_ub (g : G) (t : Tid) : (resetList g t).ub = g.ub := by
  unfold resetList; split <;> rfl
@[simp] theorem resetList_tr (g : G) (t : Tid) : (resetList g t).tr = g.tr := by
  unfold resetList; split <;> rfl

/-- Splits a step of a frame into its cases. -/
macro "fstep_cases" h:ident : tactic => `(tactic|
  (simp only [fstep, cont] at $h:ident
   <;> (repeat' split at $h:ident)
   <;> cases $h:ident))

/-- A step of a frame adds events of its own thread to the history. -/
theorem fstep_tr {g g' : G} {t : Tid} {ok : Bool} {v : Nat} {f : Frame} {nx : Next}
    {sp : Option Frame} (h : fstep g t ok v f = some (g', nx, sp)) :
    ∃ es : List Ev, g'.tr = es.map (fun e => (t, e)) ++ g.tr := by
  cases f <;> fstep_cases h <;>
    first
    | exact ⟨[], rfl⟩
    | exact ⟨[_], rfl⟩
    | exact ⟨[_, _], rfl⟩
    | exact ⟨[_], by simp only [G.emit, G.upd, resetList_tr]; rfl⟩
    | exact ⟨[], by simp only [resetList_tr]; rfl⟩

theorem mem_setTh {th : Tid → List Frame} {t u : Tid} {l : List Frame} {h : Frame}
    (hm : h ∈ setTh th t l u) : (u = t ∧ h ∈ l) ∨ (u ≠ t ∧ h ∈ th u) := by
  by_cases e : u = t
  · subst e; rw [setTh_self] at hm; exact Or.inl ⟨rfl, hm⟩
  · rw [setTh_ne _ _ e] at hm; exact Or.inr ⟨e, hm⟩

/-- The globals after a frame step. -/
theorem applyRes_g (s : S) (t : Tid) (rest : List Frame) (g : G) (nx : Next) (sp : Option Frame) :
    (applyRes s t rest (g, nx, sp)).g =
      if nx = .die then { g with dead := true } else g := by
  cases nx <;> simp [applyRes]

/-- Where the frames after a frame step come from. -/
theorem applyRes_mem {s : S} {t : Tid} {f : Frame} {rest : List Frame} {g : G} {nx : Next}
    {sp : Option Frame} (ht : s.th t = f :: rest) {u : Tid} {h : Frame}
    (hm : h ∈ (applyRes s t rest (g, nx, sp)).th u) :
    h ∈ s.th u ∨ (∃ l, nx = .go l ∧ u = t ∧ h ∈ l) ∨ (sp = some h ∧ u = s.g.nextTid) ∨
      (u = t ∧ (h = .tdtor ∨ ∃ f' n, f' ∈ s.th t ∧ f'.armed = some n ∧ h = .cl0 n)) := by
  have hth : ∀ {u h}, h ∈ (match sp with
      | some f => setTh s.th s.g.nextTid [f]
      | none => s.th) u → h ∈ s.th u ∨ (sp = some h ∧ u = s.g.nextTid) := by
    intro u h hm
    cases sp with
    | none => exact Or.inl hm
    | some f0 =>
      rcases mem_setTh hm with ⟨e, hm⟩ | ⟨_, hm⟩
      · rw [List.mem_singleton] at hm; exact Or.inr ⟨by rw [hm], e⟩
      · exact Or.inl hm
  have hr : ∀ {h}, h ∈ rest → h ∈ s.th t := fun hm => by rw [ht]; exact List.mem_cons_of_mem _ hm
  cases nx with
  | go l =>
    rcases mem_setTh hm with ⟨e, hm⟩ | ⟨_, hm⟩
    · rcases List.mem_append.1 hm with hm | hm
      · exact Or.inr (Or.inl ⟨l, rfl, e, hm⟩)
      · exact Or.inl (e ▸ hr hm)
    · rcases hth hm with h1 | h1
      · exact Or.inl h1
      · exact Or.inr (Or.inr (Or.inl h1))
  | unwind =>
    rcases mem_setTh hm with ⟨e, hm⟩ | ⟨_, hm⟩
    · rcases unwound_cases rest with hu | ⟨f', n, hf', ha, hu⟩
      · rw [hu, List.mem_singleton] at hm
        exact Or.inr (Or.inr (Or.inr ⟨e, Or.inl hm⟩))
      · rw [hu] at hm
        rcases List.mem_cons.1 hm with hm | hm
        · exact Or.inr (Or.inr (Or.inr ⟨e, Or.inr ⟨f', n, hr hf', ha, hm⟩⟩))
        · rw [List.mem_singleton] at hm
          exact Or.inr (Or.inr (Or.inr ⟨e, Or.inl hm⟩))
    · rcases hth hm with h1 | h1
      · exact Or.inl h1
      · exact Or.inr (Or.inr (Or.inl h1))
  | die =>
    rcases hth hm with h1 | h1
    · exact Or.inl h1
    · exact Or.inr (Or.inr (Or.inl h1))

/-- Frames that may be pushed on any stack at any time. -/
def Frame.pushable : Frame → Bool
  | .bl0 | .bp0 false 0 | .ep0 _ | .xErr | .xExit | .xUExit | .xUExit2 false | .xExec
  | .xExec2 false | .xSig _ | .px0 | .pc0 .. | .fk0 | .rf | .br0 _ | .sw0 | .qNum | .qData | .qInfo
  | .qThr | .qBlock _ | .qIgnore _ | .h0 | .app | .tdtor => true
  | _ => false

theorem api_pushable {a : Api} {f : Frame} (h : f ∈ a.frames) : f.pushable = true := by
  cases a <;> simp only [Api.frames] at h <;> (try split at h) <;>
    simp only [List.mem_cons, List.not_mem_nil, or_false] at h <;>
    first | (subst h; rfl) | (rcases h with h | h <;> subst h <;> rfl)

/-- Invariants made of a predicate on the globals and one on each frame of each thread. -/
theorem frames_inv {A : S → Lbl → Prop} {GI : G → Prop} {FI : G → Tid → Frame → Prop}
    (hGI : GI {}) (hFI : FI {} 0 .start)
    (hgo : ∀ {s : S} {t : Tid} {f : Frame} {rest : List Frame} {ok : Bool} {v : Nat} {g' : G}
      {nx : Next} {sp : Option Frame}, A s (.step t (.go ok v)) → s.th t = f :: rest → GI s.g →
      (∀ u h, h ∈ s.th u → FI s.g u h) → fstep s.g t ok v f = some (g', nx, sp) →
      GI g' ∧ (∀ u h, FI s.g u h → FI g' u h) ∧ (∀ l, nx = .go l → ∀ h ∈ l, FI g' t h) ∧
        (∀ h, sp = some h → FI g' s.g.nextTid h))
    (hdead : ∀ g : G, GI g → GI { g with dead := true })
    (hdeadF : ∀ (g : G) (u : Tid) (h : Frame), FI g u h → FI { g with dead := true } u h)
    (hpush : ∀ {g : G} {t : Tid} {h : Frame}, GI g → h.pushable = true → FI g t h)
    (hcl : ∀ {g : G} {t : Tid} {f : Frame} {n : NodeId}, f.armed = some n → FI g t f →
      FI g t (.cl0 n))
    (hforkG : ∀ {g : G} {t : Tid} {real : Bool}, GI g → GI (g.emit t (.forked real)))
    (hfork : ∀ {g : G} {t : Tid} {real : Bool} {u : Tid} {h : Frame}, FI g u h →
      FI (g.emit t (.forked real)) u h)
    (hfk : ∀ {g : G} {t : Tid} {c : Nat} {d : Data}, FI g t (.fkReal c d) →
      FI (g.emit t (.forked false)) t (.bp0 true d) ∧ FI (g.emit t (.forked false)) t (.fkChild c))
    (hrf : ∀ {g : G} {t : Tid}, FI g t .rf → FI (g.emit t (.forked true)) t .rfReset)
    {s : S} (hs : ReachA A s) : GI s.g ∧ ∀ u h, h ∈ s.th u → FI s.g u h := by
  induction hs with
  | init =>
    refine ⟨hGI, fun u h hm => ?_⟩
    simp only at hm
    split at hm
    · rename_i e
      rw [List.mem_singleton] at hm
      rw [e, hm]; exact hFI
    · cases hm
  | @next s s' l hr hA hn ih =>
    obtain ⟨iG, iF⟩ := ih
    have hm := move_of_next hn
    cases hm with
    | @go t f rest ok v r hd ht hf =>
      obtain ⟨g', nx, sp⟩ := r
      obtain ⟨h1, h2, h3, h4⟩ := hgo hA ht iG iF hf
      have key : ∀ u h, h ∈ (applyRes s t rest (g', nx, sp)).th u → FI g' u h := by
        intro u h hm
        rcases applyRes_mem ht hm with hm | ⟨l, e, eu, hm⟩ | ⟨e, eu⟩ | ⟨eu, e | ⟨f', n, hf', ha, e⟩⟩
        · exact h2 _ _ (iF _ _ hm)
        · rw [eu]; exact h3 l e h hm
        · rw [eu]; exact h4 h e
        · rw [e]; exact hpush h1 rfl
        · rw [e, eu]; exact hcl ha (h2 _ _ (iF _ _ hf'))
      rw [applyRes_g]
      split
      · exact ⟨hdead _ h1, fun u h hm => hdeadF _ _ _ (key u h hm)⟩
      · exact ⟨h1, key⟩
    | @call t f rest a hd ht hf =>
      refine ⟨iG, fun u h hm => ?_⟩
      rcases mem_setTh hm with ⟨e, hm⟩ | ⟨_, hm⟩
      · rcases List.mem_append.1 hm with hm | hm
        · exact hpush iG (api_pushable hm)
        · exact e ▸ iF t h (by rw [ht]; exact hm)
      · exact iF _ _ hm
    | @unwind t f rest hd ht hf =>
      refine ⟨iG, fun u h hm => ?_⟩
      rcases mem_setTh hm with ⟨e, hm⟩ | ⟨_, hm⟩
      · rcases unwound_cases (f :: rest) with hu | ⟨f', n, hf', ha, hu⟩
        · rw [hu, List.mem_singleton] at hm
          rw [hm]; exact hpush iG rfl
        · rw [hu] at hm
          rcases List.mem_cons.1 hm with hm | hm
          · rw [hm, e]; exact hcl ha (iF t f' (by rw [ht]; exact hf'))
          · rw [List.mem_singleton] at hm
            rw [hm]; exact hpush iG rfl
      · exact iF _ _ hm
    | @deliver t f rest hd ht hon hh =>
      refine ⟨iG, fun u h hm => ?_⟩
      rcases mem_setTh hm with ⟨e, hm⟩ | ⟨_, hm⟩
      · rcases List.mem_cons.1 hm with hm | hm
        · rw [hm]; exact hpush iG rfl
        · exact e ▸ iF t h (by rw [ht]; exact hm)
      · exact iF _ _ hm
    | @interrupt t f rest hd ht =>
      refine ⟨iG, fun u h hm => ?_⟩
      rcases mem_setTh hm with ⟨e, hm⟩ | ⟨_, hm⟩
      · rcases List.mem_cons.1 hm with hm | hm
        · rw [hm]; exact hpush iG rfl
        · exact e ▸ iF t h (by rw [ht]; exact hm)
      · exact iF _ _ hm
    | @fork t c d rest hd ht =>
      refine ⟨hforkG iG, fun u h hm => ?_⟩
      have hk := hfk (iF t _ (by rw [ht]; exact List.mem_cons_self))
      rcases mem_setTh (th := fun _ => []) (t := t)
        (l := Frame.bp0 true d :: .fkChild c :: rest) hm with ⟨e, hm⟩ | ⟨_, hm⟩
      · rcases List.mem_cons.1 hm with hm | hm
        · rw [hm, e]; exact hk.1
        rcases List.mem_cons.1 hm with hm | hm
        · rw [hm, e]; exact hk.2
        · rw [e]; exact hfork (iF t _ (by rw [ht]; exact List.mem_cons_of_mem _ hm))
      · cases hm
    | @realFork t rest hd ht =>
      refine ⟨hforkG iG, fun u h hm => ?_⟩
      rcases mem_setTh (th := fun _ => []) (t := t) (l := Frame.rfReset :: rest) hm with ⟨e, hm⟩ | ⟨_, hm⟩
      · rcases List.mem_cons.1 hm with hm | hm
        · rw [hm, e]; exact hrf (iF t _ (by rw [ht]; exact List.mem_cons_self))
        · rw [e]; exact hfork (iF t _ (by rw [ht]; exact List.mem_cons_of_mem _ hm))
      · cases hm

/-- Tokens held by a stack. -/
def toks (tok : Frame → Nat) (l : List Frame) : Nat := (l.map tok).sum

theorem toks_append (tok : Frame → Nat) (a b : List Frame) :
    toks tok (a ++ b) = toks tok a + toks tok b := by
  simp [toks]

theorem toks_cons (tok : Frame → Nat) (a : Frame) (b : List Frame) :
    toks tok (a :: b) = tok a + toks tok b := by
  simp [toks]

theorem toks_nil (tok : Frame → Nat) : toks tok [] = 0 := rfl

theorem toks_zero {tok : Frame → Nat} {l : List Frame} (h : ∀ f ∈ l, tok f = 0) :
    toks tok l = 0 := by
  induction l with
  | nil => rfl
  | cons a l ih =>
    rw [toks_cons, h a List.mem_cons_self, ih (fun f hf => h f (List.mem_cons_of_mem _ hf))]

/-- At most one token in the process, `used g` of it already spent; none before `flag`. -/
def OneTok (tok : Frame → Nat) (flag : G → Bool) (used : G → Nat) (s : S) : Prop :=
  (flag s.g = false → used s.g = 0 ∧ ∀ t, toks tok (s.th t) = 0) ∧
  (flag s.g = true → ∃ w, (∀ t, t ≠ w → toks tok (s.th t) = 0) ∧
    toks tok (s.th w) + used s.g ≤ 1)

theorem oneTok_set {tok : Frame → Nat} {flag : G → Bool} {used : G → Nat} {s : S} {g' : G}
    {t : Tid} {f : Frame} {rest l : List Frame} (hi : OneTok tok flag used s)
    (ht : s.th t = f :: rest)
    (hflag : (flag g' = flag s.g ∧ toks tok l + used g' ≤ toks tok (f :: rest) + used s.g) ∨
      (flag s.g = false ∧ flag g' = true ∧ toks tok l + used g' ≤ 1))
    (hmono : used s.g ≤ used g') :
    OneTok tok flag used { g := g', th := setTh s.th t l } := by
  obtain ⟨i0, i1⟩ := hi
  have hth := congrArg (toks tok) ht
  rcases hflag with ⟨e, hle⟩ | ⟨e0, e1, hle⟩
  · constructor
    · intro hf
      obtain ⟨a, b⟩ := i0 (e ▸ hf)
      have := b t
      refine ⟨by show used g' = 0; omega, fun u => ?_⟩
      by_cases eu : u = t
      · subst eu; show toks tok (setTh s.th u l u) = 0; rw [setTh_self]; omega
      · show toks tok (setTh s.th t l u) = 0; rw [setTh_ne _ _ eu]; exact b u
    · intro hf
      obtain ⟨w, b, c⟩ := i1 (e ▸ hf)
      by_cases ew : t = w
      · subst ew
        refine ⟨t, fun u hu => ?_, ?_⟩
        · show toks tok (setTh s.th t l u) = 0; rw [setTh_ne _ _ hu]; exact b u hu
        · show toks tok (setTh s.th t l t) + used g' ≤ 1; rw [setTh_self]; omega
      · have h0 := b t ew
        refine ⟨w, fun u hu => ?_, ?_⟩
        · show toks tok (setTh s.th t l u) = 0
          by_cases eu : u = t
          · subst eu; rw [setTh_self]; omega
          · rw [setTh_ne _ _ eu]; exact b u hu
        · show toks tok (setTh s.th t l w) + used g' ≤ 1
          rw [setTh_ne _ _ (Ne.symm ew)]; omega
  · constructor
    · intro hf
      have hf : flag g' = false := hf
      rw [e1] at hf; cases hf
    · intro _
      obtain ⟨a, b⟩ := i0 e0
      refine ⟨t, fun u hu => ?_, ?_⟩
      · show toks tok (setTh s.th t l u) = 0; rw [setTh_ne _ _ hu]; exact b u
      · show toks tok (setTh s.th t l t) + used g' ≤ 1; rw [setTh_self]; exact hle

theorem oneTok_spawn {tok : Frame → Nat} {flag : G → Bool} {used : G → Nat} {s : S} {n : Tid}
    {f0 : Frame} (hi : OneTok tok flag used s) (h0 : tok f0 = 0) (hn : s.th n = []) :
    OneTok tok flag used { s with th := setTh s.th n [f0] } := by
  have key : ∀ u, toks tok (setTh s.th n [f0] u) = toks tok (s.th u) := by
    intro u
    by_cases e : u = n
    · subst e; rw [setTh_self, hn, toks_cons, h0]; rfl
    · rw [setTh_ne _ _ e]
  obtain ⟨i0, i1⟩ := hi
  constructor
  · intro hf
    exact ⟨(i0 hf).1, fun u => by rw [key]; exact (i0 hf).2 u⟩
  · intro hf
    obtain ⟨w, b, c⟩ := i1 hf
    exact ⟨w, fun u hu => by show toks tok (setTh s.th n [f0] u) = 0; rw [key]; exact b u hu,
      by show toks tok (setTh s.th n [f0] w) + used s.g ≤ 1; rw [key]; exact c⟩

theorem fstep_spawn {g g' : G} {t : Tid} {ok : Bool} {v : Nat} {f : Frame} {nx : Next}
    {sp : Option Frame} (h : fstep g t ok v f = some (g', nx, sp)) :
    (sp = none ∧ g'.nextTid = g.nextTid) ∨
      (∃ f0 l, sp = some f0 ∧ g'.nextTid = g.nextTid + 1 ∧ nx = .go l) := by
  cases f <;> fstep_cases h <;>
    first
    | exact Or.inl ⟨rfl, rfl⟩
    | exact Or.inr ⟨_, _, rfl, rfl, rfl⟩
    | exact Or.inl ⟨rfl, by simp only [G.emit, G.upd, resetList_nextTid]⟩

/-- Thread identifiers from `nextTid` on are unused. -/
theorem fresh_inv {A : S → Lbl → Prop} {s : S} (hs : ReachA A s) :
    ∀ t, s.g.nextTid ≤ t → s.th t = [] := by
  have push : ∀ {s : S} {t : Tid} {f : Frame} {rest l : List Frame} {k : Nat},
      (∀ t, s.g.nextTid ≤ t → s.th t = []) → s.th t = f :: rest → s.g.nextTid ≤ k →
      ∀ u, k ≤ u → setTh s.th t l u = [] := by
    intro s t f rest l k ih ht hk u hu
    have hne : u ≠ t := by
      intro e; subst e
      have := ih u (by omega)
      rw [ht] at this; cases this
    rw [setTh_ne _ _ hne]
    exact ih u (by omega)
  induction hs with
  | init =>
    intro t ht
    have : t ≠ 0 := by
      have : (1 : Nat) ≤ t := ht
      omega
    show (if t = 0 then [Frame.start] else []) = []
    rw [if_neg this]
  | @next s s' l hr hA hn ih =>
    have hm := move_of_next hn
    cases hm with
    | @go t f rest ok v r hd ht hf =>
      obtain ⟨g', nx, sp⟩ := r
      intro u hu
      rcases fstep_spawn hf with ⟨rfl, e⟩ | ⟨f0, l, rfl, e, rfl⟩
      · cases nx with
        | go l => exact push ih ht (Nat.le_of_eq e.symm) u hu
        | unwind => exact push ih ht (Nat.le_of_eq e.symm) u hu
        | die => exact ih u (by rw [← e]; exact hu)
      · have hu : g'.nextTid ≤ u := hu
        show setTh (setTh s.th s.g.nextTid [f0]) t (l ++ rest) u = []
        have h1 : u ≠ t := by
          intro e'; subst e'
          have := ih u (by omega)
          rw [ht] at this; cases this
        rw [setTh_ne _ _ h1, setTh_ne _ _ (by omega)]
        exact ih u (by omega)
    | @call t f rest a hd ht hf => exact push ih ht (Nat.le_refl _)
    | @unwind t f rest hd ht hf => exact push ih ht (Nat.le_refl _)
    | @deliver t f rest hd ht hon hh => exact push ih ht (Nat.le_refl _)
    | @interrupt t f rest hd ht => exact push ih ht (Nat.le_refl _)
    | @fork t c d rest hd ht =>
      intro u hu
      have hne : u ≠ t := by
        intro e; subst e
        have := ih u hu
        rw [ht] at this; cases this
      show setTh (fun _ => []) t _ u = []
      rw [setTh_ne _ _ hne]
    | @realFork t rest hd ht =>
      intro u hu
      have hne : u ≠ t := by
        intro e; subst e
        have := ih u hu
        rw [ht] at this; cases this
      show setTh (fun _ => []) t _ u = []
      rw [setTh_ne _ _ hne]

/-- Tokens after a frame step in place of the frame `f`. -/
def Next.toks (tok : Frame → Nat) (f : Frame) : Next → Nat
  | .go l => Proc.toks tok l
  | .unwind => 0
  | .die => tok f

theorem setTh_id {th : Tid → List Frame} {t : Tid} {l : List Frame} (h : th t = l) :
    setTh th t l = th := by
  funext u
  by_cases e : u = t
  · subst e; rw [setTh_self, h]
  · rw [setTh_ne _ _ e]

/-- Preservation of `OneTok` by everything but fork. -/
theorem oneTok_step {tok : Frame → Nat} {flag : G → Bool} {used : G → Nat}
    (hp : ∀ h, h.pushable = true → tok h = 0) (hcl : ∀ n, tok (.cl0 n) = 0)
    (hdead : ∀ g : G, flag { g with dead := true } = flag g ∧ used { g with dead := true } = used g)
    (hgo : ∀ {g : G} {t : Tid} {ok : Bool} {v : Nat} {f : Frame} {g' : G} {nx : Next}
      {sp : Option Frame}, (flag g = false → used g = 0) → fstep g t ok v f = some (g', nx, sp) →
      used g ≤ used g' ∧ (∀ f0, sp = some f0 → tok f0 = 0) ∧
      ((flag g' = flag g ∧ nx.toks tok f + used g' ≤ tok f + used g) ∨
        (flag g = false ∧ flag g' = true ∧ nx.toks tok f + used g' ≤ 1)))
    {s s' : S} {l : Lbl} (hfresh : ∀ t, s.g.nextTid ≤ t → s.th t = []) (hm : Move s l s')
    (hl : ∀ t, l ≠ .fork t) (ih : OneTok tok flag used s) : OneTok tok flag used s' := by
  have htd : tok .tdtor = 0 := hp _ rfl
  have hunw : ∀ l, toks tok (unwound l) = 0 := by
    intro l
    rcases unwound_cases l with h | ⟨_, n, _, _, h⟩ <;> rw [h] <;> simp [toks_cons, toks_nil, htd, hcl]
  have push : ∀ {s : S} {t : Tid} {f : Frame} {rest l : List Frame}, OneTok tok flag used s →
      s.th t = f :: rest → toks tok l ≤ toks tok (f :: rest) →
      OneTok tok flag used { s with th := setTh s.th t l } := by
    intro s t f rest l ih ht hle
    exact oneTok_set ih ht (Or.inl ⟨rfl, by omega⟩) (Nat.le_refl _)
  cases hm with
  | @go t f rest ok v r hd ht hf =>
    obtain ⟨g', nx, sp⟩ := r
    obtain ⟨hmono, hsp, hfl⟩ := hgo (fun h => (ih.1 h).1) hf
    rcases fstep_spawn hf with ⟨rfl, e⟩ | ⟨f0, l, rfl, e, rfl⟩
    · cases nx with
      | go l =>
        refine oneTok_set ih ht ?_ hmono
        simp only [Next.toks] at hfl
        rw [toks_append, toks_cons]
        rcases hfl with ⟨a, b⟩ | ⟨a, b, c⟩
        · exact Or.inl ⟨a, by omega⟩
        · have := (ih.1 a).2 t
          rw [ht, toks_cons] at this
          exact Or.inr ⟨a, b, by omega⟩
      | unwind =>
        refine oneTok_set ih ht ?_ hmono
        simp only [Next.toks] at hfl
        rw [hunw, toks_cons]
        rcases hfl with ⟨a, b⟩ | ⟨a, b, c⟩
        · exact Or.inl ⟨a, by omega⟩
        · exact Or.inr ⟨a, b, by omega⟩
      | die =>
        have := oneTok_set (g' := { g' with dead := true }) (l := f :: rest) ih ht ?_
          (by rw [(hdead g').2]; exact hmono)
        · rw [setTh_id ht] at this; exact this
        · rw [(hdead g').1, (hdead g').2, toks_cons]
          simp only [Next.toks] at hfl
          rcases hfl with ⟨a, b⟩ | ⟨a, b, c⟩
          · exact Or.inl ⟨a, by omega⟩
          · have := (ih.1 a).2 t
            rw [ht, toks_cons] at this
            exact Or.inr ⟨a, b, by omega⟩
    · have hfr := hfresh s.g.nextTid (Nat.le_refl _)
      have ih2 := oneTok_spawn ih (hsp f0 rfl) hfr
      have hne : t ≠ s.g.nextTid := by
        intro e'; rw [e', hfr] at ht; cases ht
      refine oneTok_set (s := { s with th := setTh s.th s.g.nextTid [f0] }) ih2
        (f := f) (rest := rest) (by show setTh _ _ _ t = _; rw [setTh_ne _ _ hne, ht]) ?_ hmono
      simp only [Next.toks] at hfl
      rw [toks_append, toks_cons]
      rcases hfl with ⟨a, b⟩ | ⟨a, b, c⟩
      · exact Or.inl ⟨a, by show _ ≤ _ + used s.g; omega⟩
      · have := (ih.1 a).2 t
        rw [ht, toks_cons] at this
        exact Or.inr ⟨a, b, by omega⟩
  | @call t f rest a hd ht hf =>
    refine push ih ht ?_
    rw [toks_append, toks_zero (l := a.frames) (fun f hf => hp f (api_pushable hf))]; omega
  | @unwind t f rest hd ht hf => exact push ih ht (by rw [hunw]; omega)
  | @deliver t f rest hd ht hon hh =>
    refine push ih ht ?_
    rw [toks_cons .., hp _ rfl]; omega
  | @interrupt t f rest hd ht =>
    refine push ih ht ?_
    rw [toks_cons .., hp _ rfl]; omega
  | @fork t c d rest hd ht => exact absurd rfl (hl t)
  | @realFork t rest hd ht => exact absurd rfl (hl t)

theorem oneTok_fork {tok : Frame → Nat} {flag : G → Bool} {used : G → Nat} {s : S} {t : Tid}
    {f : Frame} {l' rest : List Frame} {real : Bool}
    (hfork : flag (s.g.emit t (.forked real)) = flag s.g ∧
      used (s.g.emit t (.forked real)) ≤ used s.g)
    (ih : OneTok tok flag used s) (ht : s.th t = f :: rest)
    (hle : toks tok l' ≤ tok f + toks tok rest) :
    OneTok tok flag used { g := s.g.emit t (.forked real), th := setTh (fun _ => []) t l' } := by
  obtain ⟨e, hu⟩ := hfork
  have hz : ∀ u, u ≠ t → toks tok (setTh (fun _ => []) t l' u) = 0 := by
    intro u hne; rw [setTh_ne _ _ hne]; rfl
  have hs : toks tok (setTh (fun _ => []) t l' t) ≤ toks tok (s.th t) := by
    rw [setTh_self, ht, toks_cons]; exact hle
  constructor
  · intro hf
    obtain ⟨a, b⟩ := ih.1 (e ▸ hf)
    have := b t
    refine ⟨by show used (s.g.emit t (.forked real)) = 0; omega, fun u => ?_⟩
    by_cases eu : u = t
    · subst eu; show toks tok (setTh (fun _ => []) u l' u) = 0; omega
    · exact hz u eu
  · intro hf
    obtain ⟨w, b, c⟩ := ih.2 (e ▸ hf)
    refine ⟨t, hz, ?_⟩
    show toks tok (setTh (fun _ => []) t l' t) + used (s.g.emit t (.forked real)) ≤ 1
    by_cases ew : t = w
    · subst ew; omega
    · have := b t ew; omega

/-- Preservation of `OneTok`. -/
theorem oneTok_inv {A : S → Lbl → Prop} {tok : Frame → Nat} {flag : G → Bool} {used : G → Nat}
    (hinit : used {} = 0) (hinitf : flag {} = false)
    (hstart : tok .start = 0) (hp : ∀ h, h.pushable = true → tok h = 0) (hcl : ∀ n, tok (.cl0 n) = 0)
    (hbp : ∀ c d, tok (.bp0 true d) + tok (.fkChild c) ≤ tok (.fkReal c d))
    (hrf : tok .rfReset ≤ tok .rf)
    (hdead : ∀ g : G, flag { g with dead := true } = flag g ∧ used { g with dead := true } = used g)
    (hfork : ∀ (g : G) (t : Tid) (real : Bool), flag (g.emit t (.forked real)) = flag g ∧
      used (g.emit t (.forked real)) ≤ used g)
    (hgo : ∀ {g : G} {t : Tid} {ok : Bool} {v : Nat} {f : Frame} {g' : G} {nx : Next}
      {sp : Option Frame}, (flag g = false → used g = 0) → fstep g t ok v f = some (g', nx, sp) →
      used g ≤ used g' ∧ (∀ f0, sp = some f0 → tok f0 = 0) ∧
      ((flag g' = flag g ∧ nx.toks tok f + used g' ≤ tok f + used g) ∨
        (flag g = false ∧ flag g' = true ∧ nx.toks tok f + used g' ≤ 1)))
    {s : S} (hs : ReachA A s) : OneTok tok flag used s := by
  induction hs with
  | init =>
    constructor
    · intro _
      refine ⟨hinit, fun t => ?_⟩
      show toks tok (if t = 0 then [Frame.start] else []) = 0
      split
      · rw [toks_cons, hstart]; rfl
      · rfl
    · intro hf
      have hf : flag {} = true := hf
      rw [hinitf] at hf; cases hf
  | @next s s' l hr hA hn ih =>
    have hm := move_of_next hn
    cases l with
    | step t i => exact oneTok_step hp hcl hdead hgo (fresh_inv hr) hm (fun _ h => by cases h) ih
    | fork t =>
      cases hm with
      | @fork _ c d rest hd ht =>
        refine oneTok_fork (hfork _ _ _) ih ht ?_
        have := hbp c d
        rw [toks_cons, toks_cons]; omega
      | @realFork _ rest hd ht =>
        refine oneTok_fork (hfork _ _ _) ih ht ?_
        rw [toks_cons]; omega

/-- Invariants made of a predicate on the globals and one on the stack of each thread. -/
theorem stack_inv {A : S → Lbl → Prop} {GI : G → Prop} {SI : G → Tid → List Frame → Prop}
    (hGI : GI {}) (hSI : SI {} 0 [.start])
    (hgo : ∀ {s : S} {t : Tid} {f : Frame} {rest : List Frame} {ok : Bool} {v : Nat} {g' : G}
      {nx : Next} {sp : Option Frame}, ReachA A s → A s (.step t (.go ok v)) →
      s.th t = f :: rest → GI s.g →
      (∀ u, SI s.g u (s.th u)) → fstep s.g t ok v f = some (g', nx, sp) →
      GI g' ∧ (∀ u, u ≠ t → SI s.g u (s.th u) → SI g' u (s.th u)) ∧
        (nx = .die → SI g' t (f :: rest)) ∧
        (nx = .unwind → SI g' t rest) ∧
        (∀ l, nx = .go l → SI g' t (l ++ rest)) ∧ (∀ f0, sp = some f0 → SI g' s.g.nextTid [f0]))
    (hdead : ∀ g : G, GI g → GI { g with dead := true })
    (hdeadS : ∀ (g : G) (u : Tid) (l : List Frame), SI g u l → SI { g with dead := true } u l)
    (hcall : ∀ {g : G} {t : Tid} {f : Frame} {rest : List Frame} (a : Api), GI g →
      f.foreign = true → SI g t (f :: rest) → SI g t (a.frames ++ f :: rest))
    (hh0 : ∀ {g : G} {t : Tid} {rest : List Frame}, GI g → g.handlerOn = true →
      SI g t rest → SI g t (.h0 :: rest))
    (happ : ∀ {g : G} {t : Tid} {rest : List Frame}, GI g → SI g t rest → SI g t (.app :: rest))
    (hunw : ∀ {g : G} {t : Tid} {l : List Frame}, GI g → SI g t l → SI g t (unwound l))
    (hforkG : ∀ {s : S} {t : Tid} {real : Bool}, ReachA A s → A s (.fork t) → GI s.g →
      GI (s.g.emit t (.forked real)))
    (hnil : ∀ {g : G} {t : Tid}, SI g t [])
    (hfk : ∀ {s : S} {t : Tid} {c : Nat} {d : Data} {rest : List Frame}, ReachA A s →
      A s (.fork t) → s.th t = .fkReal c d :: rest → GI s.g → SI s.g t (.fkReal c d :: rest) →
      SI (s.g.emit t (.forked false)) t (.bp0 true d :: .fkChild c :: rest))
    (hrf : ∀ {s : S} {t : Tid} {rest : List Frame}, ReachA A s → A s (.fork t) →
      s.th t = .rf :: rest → GI s.g → SI s.g t (.rf :: rest) →
      SI (s.g.emit t (.forked true)) t (.rfReset :: rest))
    {s : S} (hs : ReachA A s) : GI s.g ∧ ∀ u, SI s.g u (s.th u) := by
  have set : ∀ {s : S} {t : Tid} {l : List Frame}, (∀ u, SI s.g u (s.th u)) → SI s.g t l →
      ∀ u, SI s.g u (setTh s.th t l u) := by
    intro s t l ih hl u
    by_cases e : u = t
    · subst e; rw [setTh_self]; exact hl
    · rw [setTh_ne _ _ e]; exact ih u
  have setE : ∀ {g : G} {t : Tid} {l : List Frame}, SI g t l →
      ∀ u, SI g u (setTh (fun _ => []) t l u) := by
    intro g t l hl u
    by_cases e : u = t
    · subst e; rw [setTh_self]; exact hl
    · rw [setTh_ne _ _ e]; exact hnil
  induction hs with
  | init =>
    refine ⟨hGI, fun u => ?_⟩
    show SI {} u (if u = 0 then [Frame.start] else [])
    split
    · rename_i e; rw [e]; exact hSI
    · exact hnil
  | @next s s' l hr hA hn ih =>
    obtain ⟨iG, iS⟩ := ih
    have hm := move_of_next hn
    cases hm with
    | @go t f rest ok v r hd ht hf =>
      obtain ⟨g', nx, sp⟩ := r
      obtain ⟨h1, h2, h3, h4, h5, h6⟩ := hgo hr hA ht iG iS hf
      have iSt : SI s.g t (f :: rest) := by rw [← ht]; exact iS t
      rcases fstep_spawn hf with ⟨rfl, e⟩ | ⟨f0, l, rfl, e, rfl⟩
      · cases nx with
        | go l =>
          refine ⟨h1, fun u => ?_⟩
          show SI g' u (setTh s.th t (l ++ rest) u)
          by_cases eu : u = t
          · subst eu; rw [setTh_self]; exact h5 l rfl
          · rw [setTh_ne _ _ eu]; exact h2 u eu (iS u)
        | unwind =>
          refine ⟨h1, fun u => ?_⟩
          show SI g' u (setTh s.th t (unwound rest) u)
          by_cases eu : u = t
          · subst eu; rw [setTh_self]; exact hunw h1 (h4 rfl)
          · rw [setTh_ne _ _ eu]; exact h2 u eu (iS u)
        | die =>
          refine ⟨hdead _ h1, fun u => hdeadS _ _ _ ?_⟩
          show SI g' u (s.th u)
          by_cases eu : u = t
          · subst eu; rw [ht]; exact h3 rfl
          · exact h2 u eu (iS u)
      · have hfr := fresh_inv hr s.g.nextTid (Nat.le_refl _)
        have hne : t ≠ s.g.nextTid := by
          intro e'; rw [e', hfr] at ht; cases ht
        refine ⟨h1, fun u => ?_⟩
        show SI g' u (setTh (setTh s.th s.g.nextTid [f0]) t (l ++ rest) u)
        by_cases eu : u = t
        · subst eu; rw [setTh_self]; exact h5 l rfl
        · rw [setTh_ne _ _ eu]
          by_cases en : u = s.g.nextTid
          · rw [en, setTh_self]; exact h6 f0 rfl
          · rw [setTh_ne _ _ en]; exact h2 u eu (iS u)
    | @call t f rest a hd ht hf =>
      exact ⟨iG, set iS (hcall a iG hf (by rw [← ht]; exact iS t))⟩
    | @unwind t f rest hd ht hf =>
      exact ⟨iG, set iS (hunw iG (by rw [← ht]; exact iS t))⟩
    | @deliver t f rest hd ht hon hh =>
      exact ⟨iG, set iS (hh0 iG hon (by rw [← ht]; exact iS t))⟩
    | @interrupt t f rest hd ht =>
      exact ⟨iG, set iS (happ iG (by rw [← ht]; exact iS t))⟩
    | @fork t c d rest hd ht =>
      exact ⟨hforkG hr hA iG, setE (hfk hr hA ht iG (by rw [← ht]; exact iS t))⟩
    | @realFork t rest hd ht =>
      exact ⟨hforkG hr hA iG, setE (hrf hr hA ht iG (by rw [← ht]; exact iS t))⟩

/-- Invariants about the globals only. -/
theorem glob_inv {A : S → Lbl → Prop} {GI : G → Prop} (hGI : GI {})
    (hgo : ∀ {s : S} {t : Tid} {f : Frame} {rest : List Frame} {ok : Bool} {v : Nat} {g' : G}
      {nx : Next} {sp : Option Frame}, ReachA A s → A s (.step t (.go ok v)) →
      s.th t = f :: rest → GI s.g → fstep s.g t ok v f = some (g', nx, sp) → GI g')
    (hdead : ∀ g : G, GI g → GI { g with dead := true })
    (hfork : ∀ {s : S} {t : Tid} {real : Bool}, ReachA A s → GI s.g →
      GI (s.g.emit t (.forked real)))
    {s : S} (hs : ReachA A s) : GI s.g := by
  induction hs with
  | init => exact hGI
  | @next s s' l hr hA hn ih =>
    have hm := move_of_next hn
    cases hm with
    | @go t f rest ok v r hd ht hf =>
      obtain ⟨g', nx, sp⟩ := r
      have := hgo hr hA ht ih hf
      rw [applyRes_g]
      split
      · exact hdead _ this
      · exact this
    | call => exact ih
    | unwind => exact ih
    | deliver => exact ih
    | interrupt => exact ih
    | fork => exact hfork hr ih
    | realFork => exact hfork hr ih

end Libmonitor.Proc
