import Verif.Proc.SpecCause
import Verif.Proc.OwnTsd
/-!
# What a call of an exit function has still to bring about
-/

namespace Libmonitor.Proc

/-- What is counted. -/
inductive Kind where
  | begin (how : How) | fini (how : How) | ends (e : End)
  deriving DecidableEq

def Ev.kind : Ev → Option Kind
  | .beginExit how => some (.begin how)
  | .finiProcess how _ => some (.fini how)
  | .realExit b => some (.ends (if b then .exit else .libcExit))
  | .realUExit b => some (.ends (if b then .uExit else .realUExit))
  | .realExec b => some (.ends (.exec b))
  | .realRaise => some (.ends .raise)
  | _ => none

/-- What a frame may still bring about. -/
def Frame.due : Frame → List Kind
  | .ep0 h | .ep1 h _ | .ep2 h _ => [.begin h, .fini h]
  | .epBegin h | .epFini0 h => [.fini h]
  | .xMain | .xExit => [.ends .exit]
  | .xErr => [.ends .libcExit]
  | .xUExit => [.ends .uExit]
  | .xUExit2 b => [.ends (if b then .uExit else .realUExit)]
  | .xExec => [.ends (.exec true)]
  | .xExec2 b => [.ends (.exec b)]
  | .xSig _ | .xSig2 _ => [.ends .raise]
  | _ => []

def Wish.kinds (any : Bool) (w : Wish) : List Kind :=
  (match w.reason any with | some h => [.begin h, .fini h] | none => []) ++
    (match w.end_ with | some e => [.ends e] | none => [])

def duel (l : List Frame) : List Kind := l.flatMap Frame.due

def Next.frames : Next → List Frame
  | .go l => l
  | _ => []

/-- What a step of a frame asks for. -/
def fasked (main : Bool) (f : Frame) (ok : Bool) : List Wish :=
  if f = .mainApp then [.mainEnds] else if f = .px0 then [.leaves main]
  else if f = .tdtor ∧ ok = false then [.lastThread] else []

theorem due_step {g g' : G} {t : Tid} {ok : Bool} {v : Nat} {f : Frame} {nx : Next}
    {sp : Option Frame} (h : fstep g t ok v f = some (g', nx, sp)) {any main : Bool}
    (hm : f = .px0 → ∀ n, getTn g t = some n → (g.nodes n).isMain = true → (main || any) = true) :
    (∃ es : List Ev, g'.tr = es.map (fun e => (t, e)) ++ g.tr ∧
      (es.filterMap Ev.kind ++ duel nx.frames).Sublist
        ((fasked main f ok).flatMap (Wish.kinds any) ++ f.due)) ∧
    ∀ x, sp = some x → x.due = [] := by
  by_cases hp : f = .px0
  · subst hp
    have hm := hm rfl
    simp only [fstep] at h
    split at h
    · rename_i n hn
      split at h
      · rename_i hi
        have := hm n hn hi
        cases h
        refine ⟨⟨[], rfl, ?_⟩, fun x hx => by cases hx⟩
        simp [duel, Next.frames, Frame.due, fasked, Wish.kinds, Wish.reason, Wish.end_, this]
      · cases h
        exact ⟨⟨[], rfl, List.nil_sublist _⟩, fun x hx => by cases hx⟩
    · cases h
      exact ⟨⟨[], rfl, List.nil_sublist _⟩, fun x hx => by cases hx⟩
  by_cases hp : f = .tdtor
  · subst hp
    simp only [fstep] at h
    split at h
    · cases h
      exact ⟨⟨[], rfl, List.nil_sublist _⟩, fun x hx => by cases hx⟩
    · rename_i ho
      have ho : ok = false := by simpa using ho
      subst ho
      cases h
      exact ⟨⟨[_], rfl, List.Sublist.refl _⟩, fun x hx => by cases hx⟩
  clear hm
  cases f <;> first | (exact absurd rfl (by assumption)) | skip
  all_goals
    fstep_cases h <;>
    (refine ⟨?_, by intro x hx; first | (cases hx; done) | (cases hx; rfl)⟩) <;>
    first
      | (refine ⟨[], rfl, ?_⟩
         simp [duel, Next.frames, Frame.due, fasked, Wish.kinds, Wish.reason, Wish.end_]; done)
      | (refine ⟨[_], rfl, ?_⟩
         simp [duel, Next.frames, Frame.due, fasked, Ev.kind]; done)
      | (refine ⟨[_, _], rfl, ?_⟩
         simp [duel, Next.frames, Frame.due, fasked, Ev.kind]; done)
      | (refine ⟨[_], by simp only [G.emit, G.upd, resetList_tr]; rfl, ?_⟩
         simp [duel, Next.frames, Frame.due, fasked, Ev.kind]; done)
      | (refine ⟨[], by simp [resetList_tr, listInit, G.upd], ?_⟩
         simp [duel, Next.frames, Frame.due, fasked]; done)

/-- What happened in a thread, and what it asked for. -/
def trK (tr : Hist) (t : Tid) : List Kind :=
  tr.filterMap (fun x => if x.1 = t then x.2.kind else none)

def wsK (any : Bool) (ws : List (Tid × Wish)) (t : Tid) : List Kind :=
  ws.flatMap (fun x => if x.1 = t then x.2.kinds any else [])

theorem trK_app (a b : Hist) (t : Tid) : trK (a ++ b) t = trK a t ++ trK b t := by
  simp [trK]

theorem wsK_app {any : Bool} (a b : List (Tid × Wish)) (t : Tid) : wsK any (a ++ b) t = wsK any a t ++ wsK any b t := by
  simp [wsK]

theorem trK_map (es : List Ev) (t u : Tid) :
    trK (es.map (fun e => (t, e))) u = if t = u then es.filterMap Ev.kind else [] := by
  induction es with
  | nil => simp [trK]
  | cons e es ih =>
    have : trK ((e :: es).map (fun e => (t, e))) u =
        trK [(t, e)] u ++ trK (es.map (fun e => (t, e))) u := by
      rw [← trK_app]; rfl
    rw [this, ih]
    split <;> rename_i hu
    · subst hu
      cases he : e.kind <;> simp [trK, he]
    · simp [trK, hu]

theorem wsK_map {any : Bool} (l : List Wish) (t u : Tid) :
    wsK any (l.map (fun e => (t, e))) u = if t = u then l.flatMap (Wish.kinds any) else [] := by
  induction l with
  | nil => simp [wsK]
  | cons e es ih =>
    have : wsK any ((e :: es).map (fun e => (t, e))) u =
        wsK any [(t, e)] u ++ wsK any (es.map (fun e => (t, e))) u := by
      rw [← wsK_app]; rfl
    rw [this, ih]
    split <;> rename_i hu
    · subst hu; simp [wsK]
    · simp [wsK, hu]

theorem duel_app (a b : List Frame) : duel (a ++ b) = duel a ++ duel b := by simp [duel]

theorem duel_unwound (l : List Frame) : duel (unwound l) = [] := by
  rcases unwound_cases l with h | ⟨_, _, _, _, h⟩ <;> rw [h] <;> rfl

theorem api_due {any : Bool} (a : Api) : duel a.frames = (Wish.call a).kinds any := by
  cases a
  case exec b => cases b <;> rfl
  all_goals rfl

theorem askedBy_go {s : S} {t : Tid} {f : Frame} {rest : List Frame} {ok : Bool} {v : Nat}
    (ht : s.th t = f :: rest) :
    askedBy s (.step t (.go ok v)) = (fasked (decide (t = mainOf s.g.tr)) f ok).map (fun w => (t, w)) := by
  simp only [askedBy, ht, List.head?_cons, Option.some.injEq, fasked]
  split
  · rfl
  · split
    · rfl
    · split <;> rfl

theorem ReachWish.reach {A : S → Lbl → Prop} {s : S} {ws : List (Tid × Wish)} (h : ReachWish A s ws) :
    ReachA A s := by
  induction h with
  | init => exact .init
  | next _ ha hn ih => exact .next ih ha hn

/-- Every execution can be followed in this way. -/
theorem reachWish_of {A : S → Lbl → Prop} {s : S} (h : ReachA A s) : ∃ ws, ReachWish A s ws := by
  induction h with
  | init => exact ⟨_, .init⟩
  | next _ ha hn ih => obtain ⟨ws, h⟩ := ih; exact ⟨_, .next h ha hn⟩

theorem cause_inv {A : S → Lbl → Prop} {any : Bool}
    (hA : ∀ {s : S} {t : Tid} {rest : List Frame} {n : NodeId}, ReachA A s → s.th t = .px0 :: rest →
      getTn s.g t = some n → (s.g.nodes n).isMain = true →
      (decide (t = mainOf s.g.tr) || any) = true)
    {s : S} {ws : List (Tid × Wish)} (hs : ReachWish A s ws) (u : Tid) (k : Kind) :
    (trK s.g.tr u).count k + (if s.g.dead then 0 else (duel (s.th u)).count k) ≤
      (wsK any ws u).count k := by
  induction hs generalizing u with
  | init =>
    show (trK [] u).count k + (duel (if u = 0 then [.start] else [])).count k ≤ _
    split <;> simp [duel, Frame.due, trK]
  | @next s s' ws l hr _ hn ih =>
    have hm := move_of_next hn
    have hd : s.g.dead = false := by cases hm <;> assumption
    simp only [hd, Bool.false_eq_true, ↓reduceIte] at ih
    have same : ∀ {t : Tid} {l : List Frame} {w : List (Tid × Wish)},
        (duel l).count k ≤ (wsK any w t).count k + (duel (s.th t)).count k → ∀ u,
        (trK s.g.tr u).count k + (if s.g.dead then 0 else (duel (setTh s.th t l u)).count k) ≤
          (wsK any (w ++ ws) u).count k := by
      intro t l w h u
      have := ih u
      rw [wsK_app, List.count_append]
      simp only [hd, Bool.false_eq_true, ↓reduceIte]
      unfold setTh
      split
      · rename_i e; subst e; omega
      · omega
    have born : ∀ {t : Tid} {b : Bool} {l : List Frame}, (duel l).count k ≤ (duel (s.th t)).count k →
        ∀ u, (trK ((t, Ev.forked b) :: s.g.tr) u).count k +
          (if s.g.dead then 0 else (duel (setTh (fun _ => []) t l u)).count k) ≤
          (wsK any ([] ++ ws) u).count k := by
      intro t b l h u
      have := ih u
      have e : trK ((t, Ev.forked b) :: s.g.tr) u = trK s.g.tr u := by
        rw [show (t, Ev.forked b) :: s.g.tr = [Ev.forked b].map (fun e => (t, e)) ++ s.g.tr from rfl,
          trK_app, trK_map]
        split <;> rfl
      rw [e]
      simp only [hd, Bool.false_eq_true, ↓reduceIte, List.nil_append]
      unfold setTh
      split
      · rename_i e; subst e; omega
      · simp only [duel, List.flatMap_nil, List.count_nil]; omega
    cases hm with
    | @go t f rest ok v r _ ht hf =>
      obtain ⟨g', nx, sp⟩ := r
      obtain ⟨⟨es, h1, h2⟩, h3⟩ := due_step hf
        (fun e n h1 h2 => hA hr.reach (e ▸ ht) h1 h2)
      have hg : (applyRes s t rest (g', nx, sp)).g.tr = g'.tr := by
        rw [applyRes_g]; split <;> rfl
      rw [hg, h1, trK_app, trK_map, askedBy_go ht, wsK_app, wsK_map]
      have h2 := h2.count_le k
      simp only [List.count_append] at h2 ⊢
      have i := ih u
      by_cases hu : t = u
      · subst hu
        rw [ht, show f :: rest = [f] ++ rest from rfl, duel_app, List.count_append,
          show duel [f] = f.due by simp [duel]] at i
        simp only [↓reduceIte]
        cases nx with
        | go l =>
          have e : (applyRes s t rest (g', .go l, sp)).th t = l ++ rest := by
            simp [applyRes, setTh]
          rw [e, duel_app, List.count_append]
          simp only [Next.frames] at h2
          split <;> omega
        | unwind =>
          have e : (applyRes s t rest (g', .unwind, sp)).th t = unwound rest := by
            simp [applyRes, setTh]
          rw [e, duel_unwound]
          simp only [List.count_nil, ite_self]
          omega
        | die =>
          have e : (applyRes s t rest (g', .die, sp)).g.dead = true := rfl
          rw [e]
          simp only [↓reduceIte]
          omega
      · simp only [hu, ↓reduceIte, List.count_nil, Nat.zero_add]
        have e : (duel ((applyRes s t rest (g', nx, sp)).th u)).count k ≤
            (duel (s.th u)).count k := by
          have ne : ¬ u = t := fun e => hu e.symm
          cases sp with
          | none => cases nx <;> simp [applyRes, setTh, ne]
          | some x =>
            have hx := h3 x rfl
            by_cases hnew : u = s.g.nextTid
            · have ne2 : ¬ s.g.nextTid = t := hnew ▸ ne
              cases nx <;> simp [applyRes, setTh, ne2, hnew, duel, hx]
            · cases nx <;> simp [applyRes, setTh, ne, hnew]
        split <;> omega
    | @call t f rest a _ ht hf =>
      refine same ?_ u
      have e : wsK any (askedBy s (.step t (.call a))) t = (Wish.call a).kinds any := by
        simp [wsK, askedBy]
      rw [e, duel_app, api_due (any := any), List.count_append, ht]
      exact Nat.le_refl _
    | @unwind t f rest _ ht hf =>
      refine same ?_ u
      rw [duel_unwound]; simp
    | @deliver t f rest _ ht hon hh =>
      refine same ?_ u
      rw [ht]; simp [duel, Frame.due]
    | @interrupt t f rest _ ht =>
      refine same ?_ u
      rw [ht]; simp [duel, Frame.due]
    | @fork t c d rest _ ht => 
      refine born ?_ u
      rw [ht]; simp [duel, Frame.due]
    | @realFork t rest _ ht =>
      refine born ?_ u
      rw [ht]; simp [duel, Frame.due]

theorem begin_count (tr : Hist) (t : Tid) (how : How) :
    beginTold tr t how = (trK tr t).count (.begin how) := by
  induction tr with
  | nil => rfl
  | cons x tr ih =>
    obtain ⟨u, e⟩ := x
    have h : trK ((u, e) :: tr) t = trK [(u, e)] t ++ trK tr t := by rw [← trK_app]; rfl
    rw [h, List.count_append, ← ih]
    unfold beginTold
    rw [List.countP_cons, Nat.add_comm]
    congr 1
    by_cases hu : u = t
    · subst hu
      cases e <;> simp [trK, Ev.kind, List.count_cons]
    · simp [trK, hu]

theorem fini_count (tr : Hist) (t : Tid) (how : How) :
    finiTold tr t how = (trK tr t).count (.fini how) := by
  induction tr with
  | nil => rfl
  | cons x tr ih =>
    obtain ⟨u, e⟩ := x
    have h : trK ((u, e) :: tr) t = trK [(u, e)] t ++ trK tr t := by rw [← trK_app]; rfl
    rw [h, List.count_append, ← ih]
    unfold finiTold
    rw [List.countP_cons, Nat.add_comm]
    congr 1
    by_cases hu : u = t
    · subst hu
      cases e <;> simp [trK, Ev.kind, List.count_cons]
    · cases e <;> simp [trK, hu]

theorem ev_end (e : Ev) : e.kind = e.end_.map Kind.ends ∨ e.end_ = none ∧ ∀ k, e.kind ≠ some (.ends k) := by
  cases e
  case realExit b => cases b <;> exact Or.inl rfl
  case realUExit b => cases b <;> exact Or.inl rfl
  all_goals first | exact Or.inl rfl | (right; refine ⟨rfl, fun k h => ?_⟩; simp [Ev.kind] at h)

theorem end_count (tr : Hist) (t : Tid) (e : End) :
    endDone tr t e = (trK tr t).count (.ends e) := by
  induction tr with
  | nil => rfl
  | cons x tr ih =>
    obtain ⟨u, ev⟩ := x
    have h : trK ((u, ev) :: tr) t = trK [(u, ev)] t ++ trK tr t := by rw [← trK_app]; rfl
    rw [h, List.count_append, ← ih]
    unfold endDone
    rw [List.countP_cons, Nat.add_comm]
    congr 1
    by_cases hu : u = t
    · subst hu
      rcases ev_end ev with h | ⟨h, h'⟩
      · cases he : ev.end_ with
        | none => simp [trK, h, he]
        | some y => simp [trK, h, he, List.count_cons]
      · cases hk : ev.kind with
        | none => simp [trK, h, hk]
        | some y =>
          have : y ≠ .ends e := fun c => h' e (by rw [hk, c])
          simp [trK, h, hk, this]
    · simp [trK, hu]

theorem reason_count (any : Bool) (ws : List (Tid × Wish)) (t : Tid) (how : How) :
    reasonAsked any ws t how = (wsK any ws t).count (.begin how) ∧
      reasonAsked any ws t how = (wsK any ws t).count (.fini how) := by
  induction ws with
  | nil => exact ⟨rfl, rfl⟩
  | cons x ws ih =>
    obtain ⟨u, w⟩ := x
    have h : wsK any ((u, w) :: ws) t = wsK any [(u, w)] t ++ wsK any ws t := by rw [← wsK_app]; rfl
    rw [h, List.count_append, List.count_append, ← ih.1, ← ih.2]
    have : reasonAsked any ((u, w) :: ws) t how =
        (if u = t ∧ w.reason any = some how then 1 else 0) + reasonAsked any ws t how := by
      unfold reasonAsked
      rw [List.countP_cons, Nat.add_comm]; simp
    rw [this]
    by_cases hu : u = t
    · subst hu
      cases hr : w.reason any <;> cases he : w.end_ <;>
        simp [wsK, Wish.kinds, hr, he, List.count_cons]
    · simp [wsK, hu]

theorem wish_count (any : Bool) (ws : List (Tid × Wish)) (t : Tid) (e : End) :
    endAsked ws t e = (wsK any ws t).count (.ends e) := by
  induction ws with
  | nil => rfl
  | cons x ws ih =>
    obtain ⟨u, w⟩ := x
    have h : wsK any ((u, w) :: ws) t = wsK any [(u, w)] t ++ wsK any ws t := by rw [← wsK_app]; rfl
    rw [h, List.count_append, ← ih]
    have : endAsked ((u, w) :: ws) t e =
        (if u = t ∧ w.end_ = some e then 1 else 0) + endAsked ws t e := by
      unfold endAsked
      rw [List.countP_cons, Nat.add_comm]; simp
    rw [this]
    by_cases hu : u = t
    · subst hu
      cases hr : w.reason any <;> cases he : w.end_ <;>
        simp [wsK, Wish.kinds, hr, he, List.count_cons]
    · simp [wsK, hu]

theorem reachWish_run {A : S → Lbl → Prop} [∀ s l, Decidable (A s l)] {s s' : S}
    {ws ws' : List (Tid × Wish)} {ls : List Lbl} (h : ReachWish A s ws)
    (hr : runWish A s ws ls = some (s', ws')) : ReachWish A s' ws' := by
  induction ls generalizing s ws with
  | nil => cases hr; exact h
  | cons l ls ih =>
    simp only [runWish] at hr
    split at hr
    · rename_i ha
      cases hn : next s l with
      | none => rw [hn] at hr; cases hr
      | some s1 => rw [hn] at hr; exact ih (.next h ha hn) hr
    · cases hr

theorem exists_of_runWish {A : S → Lbl → Prop} [∀ s l, Decidable (A s l)] {ls : List Lbl}
    {p : S → List (Tid × Wish) → Bool}
    (h : ((runWish A {} [] ls).map (fun x => p x.1 x.2)).getD false = true) :
    ∃ s ws, ReachWish A s ws ∧ p s ws = true := by
  cases hr : runWish A {} [] ls with
  | none => rw [hr] at h; exact absurd h (by simp)
  | some x =>
    rw [hr] at h
    exact ⟨x.1, x.2, reachWish_run .init hr, by simpa using h⟩

/-- Only main's record is marked as main's. -/
theorem slot_isMain {A : S → Lbl → Prop} {s : S} (hs : ReachA A s) :
    ∀ n, (s.g.nodes n).isMain = true → n = .main := by
  refine glob_inv (GI := fun g => ∀ n, (g.nodes n).isMain = true → n = .main) ?_ ?_
    (fun _ h => h) (fun _ h => h) hs
  · intro n h
    cases n with
    | main => rfl
    | slot a i => cases h
  · intro s t f rest ok v g' nx sp hr _ ht hG h
    cases f <;> fstep_cases h <;> first
      | exact hG
      | skip
    all_goals
      intro m hm
      simp only [G.emit, G.upd, listInit] at hm
      first
        | exact hG m hm
        | (split at hm <;> first | exact hG m hm | (cases hm; done) | (rename_i e; exact e))
        | (by_cases hc : m = .main
           · exact hc
           · refine hG m ?_
             by_cases hu : s.g.hasUsed = true
             · simpa [resetList, hu, hc] using hm
             · simpa [resetList, hu, hc] using hm)

/-- In orderly executions, pthread_exit finds main's record in the initial thread only. -/
theorem px_main {s : S} (hs : ReachA Clean s) {t : Tid} {rest : List Frame} {n : NodeId}
    (ht : s.th t = .px0 :: rest) (hn : getTn s.g t = some n) (hi : (s.g.nodes n).isMain = true) :
    t = mainOf s.g.tr := by
  have e := slot_isMain hs n hi
  subst e
  have hm : Frame.px0 ∈ s.th t := by rw [ht]; exact List.mem_cons_self
  by_cases hu : t = mainOf s.g.tr
  · exact hu
  · obtain ⟨h1, h2⟩ := ((base_inv hs).2 t _ hm).1 hu
    refine ((tsd_inv hs).1.2 h1 h2).2.2 t ?_
    unfold getTn at hn
    rw [if_pos h1] at hn
    split at hn
    · rename_i m hm
      split at hn
      · cases hn; exact hm
      · cases hn
    · cases hn

end Libmonitor.Proc
