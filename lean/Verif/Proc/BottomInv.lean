import Verif.Proc.Bottom
import Verif.Proc.PropsRec
/-!
# Lemmas about the bottom of the stack
-/

namespace Libmonitor.Proc

theorem reachB_s {A : S → Lbl → Prop} {x : B} (h : ReachB A x) : ReachA A x.s := by
  induction h with
  | init => exact .init
  | @next x x' l _ hA hn ih =>
    unfold nextB at hn
    cases h : next x.s l with
    | none => rw [h] at hn; cases hn
    | some s' => rw [h] at hn; injection hn with hn; subst hn; exact .next ih hA h

theorem reachA_imp {A A' : S → Lbl → Prop} (h : ∀ s l, A s l → A' s l) {s : S} (hs : ReachA A s) :
    ReachA A' s := by
  induction hs with
  | init => exact .init
  | next _ hA hn ih => exact .next ih (h _ _ hA) hn

theorem reachB_clean {x : B} (h : ReachB CleanKnown x) : ReachA Clean x.s :=
  reachA_imp (fun _ _ h => h.1) (reachB_s h)

def runBA (A : S → Lbl → Prop) [∀ s l, Decidable (A s l)] : B → List Lbl → Option B
  | x, [] => some x
  | x, l :: ls => if A x.s l then (nextB x l).bind (fun x' => runBA A x' ls) else none

theorem reachB_of_run {A : S → Lbl → Prop} [∀ s l, Decidable (A s l)] {ls : List Lbl} {x x' : B}
    (hx : ReachB A x) (h : runBA A x ls = some x') : ReachB A x' := by
  induction ls generalizing x with
  | nil => injection h with h; subst h; exact hx
  | cons l ls ih =>
    unfold runBA at h
    split at h
    · rename_i hA
      obtain ⟨y, h1, h2⟩ := Option.bind_eq_some_iff.1 h
      exact ih (.next hx hA h1) h2
    · cases h

theorem exists_of_runB {A : S → Lbl → Prop} [∀ s l, Decidable (A s l)] {ls : List Lbl} {p : B → Bool}
    (h : ((runBA A {} ls).map p).getD false = true) : ∃ x, ReachB A x ∧ p x = true := by
  cases hr : runBA A {} ls with
  | none => rw [hr] at h; exact absurd h (by simp)
  | some x =>
    rw [hr] at h
    exact ⟨x, reachB_of_run .init hr, by simpa using h⟩

/-- A step of the extended machine. -/
theorem nextB_cases {x x' : B} {l : Lbl} (h : nextB x l = some x') :
    next x.s l = some x'.s ∧
      ((∃ t f rest ok v r, l = .step t (.go ok v) ∧ x.s.th t = f :: rest ∧
          fstep x.s.g t ok v f = some r ∧ x'.s = applyRes x.s t rest r ∧
          x'.bot = botStep x.s.g t ok x.bot f) ∨
        ((∀ t ok v, l ≠ .step t (.go ok v)) ∧ x'.bot = x.bot)) := by
  unfold nextB at h
  cases hn : next x.s l with
  | none => rw [hn] at h; cases h
  | some s' =>
    rw [hn] at h; injection h with h; subst h
    refine ⟨rfl, ?_⟩
    have hm := move_of_next hn
    cases hm with
    | @go t f rest ok v r hd ht hf =>
      exact Or.inl ⟨t, f, rest, ok, v, r, rfl, ht, hf, rfl, by simp [ht]⟩
    | call => exact Or.inr ⟨by simp, rfl⟩
    | unwind => exact Or.inr ⟨by simp, rfl⟩
    | deliver => exact Or.inr ⟨by simp, rfl⟩
    | interrupt => exact Or.inr ⟨by simp, rfl⟩
    | fork => exact Or.inr ⟨by simp, rfl⟩
    | realFork => exact Or.inr ⟨by simp, rfl⟩

theorem resetBot_slot {g : G} {t : Tid} {b : NodeId → Option Tid} {n : NodeId} (hn : n ≠ .main) :
    resetBot g t b n = b n := by
  unfold resetBot
  split
  · cases getTn g t with
    | none => rfl
    | some m =>
      simp only
      split
      · rfl
      · simp [setBot, hn]
  · rfl

/-- In the record of a created thread the field goes with tn_self. -/
theorem bot_self_go {g g' : G} {t : Tid} {ok : Bool} {v : Nat} {f : Frame} {nx : Next}
    {sp : Option Frame} (h : fstep g t ok v f = some (g', nx, sp)) {b : NodeId → Option Tid}
    {n : NodeId} (hn : n ≠ .main) (hb : b n = (g.nodes n).self) :
    botStep g t ok b f n = (g'.nodes n).self := by
  by_cases h1 : f = .bt0 n
  · subst h1; fstep_cases h; simp [botStep, setBot, G.upd]
  by_cases h2 : f = .ul1 n
  · subst h2; fstep_cases h <;> simp_all [botStep, setBot, G.upd]
  by_cases h3 : ∃ a c my st ar d, f = .mk1 c my st ar d ∧ alloc g ok = some a ∧ a.n = n
  · obtain ⟨a, c, my, st, ar, d, rfl, ha, rfl⟩ := h3
    fstep_cases h <;> simp_all [botStep, setBot, G.upd]
  · have hk := (self_keep h hn h1 h2 (fun a c my st ar d e1 e2 e3 =>
      h3 ⟨a, c, my, st, ar, d, e1, e2, e3⟩)).1
    rw [hk, ← hb]
    cases f <;> first | rfl | skip
    · simp [botStep, setBot, hn]
    · exact resetBot_slot hn
    · rename_i m
      have : n ≠ m := fun e => h2 (by rw [e])
      simp only [botStep]
      split
      · rfl
      · split
        · simp [setBot, this]
        · rfl
    · rename_i m
      have : n ≠ m := fun e => h1 (by rw [e])
      simp [botStep, setBot, this]
    · simp only [botStep]
      cases ha : alloc g ok with
      | none => rfl
      | some a =>
        have : n ≠ a.n := fun e => h3 ⟨a, _, _, _, _, _, rfl, ha, e.symm⟩
        simp [setBot, this]
    · exact resetBot_slot hn

theorem bot_self {A : S → Lbl → Prop} {x : B} (hx : ReachB A x) {n : NodeId} (hn : n ≠ .main) :
    x.bot n = (x.s.g.nodes n).self := by
  induction hx with
  | init => cases n with
    | main => exact absurd rfl hn
    | slot => rfl
  | @next x x' l hr hA hnx ih =>
    obtain ⟨h1, ⟨t, f, rest, ok, v, r, rfl, ht, hf, e1, e2⟩ | ⟨h2, e2⟩⟩ := nextB_cases hnx
    · obtain ⟨g', nx, sp⟩ := r
      rw [e1, e2, applyRes_g]
      split <;> exact bot_self_go hf hn ih
    · rw [e2, ih]
      have hm := move_of_next h1
      generalize x'.s = s' at hm
      cases hm with
      | go => exact absurd rfl (h2 _ _ _)
      | call => rfl
      | unwind => rfl
      | deliver => rfl
      | interrupt => rfl
      | fork => rfl
      | realFork => rfl

/-- monitor_main is on the stack of the initial thread only. -/
def Frame.isTop : Frame → Bool
  | .start | .mainAt0 => true
  | _ => false

theorem top_main {A : S → Lbl → Prop} {s : S} (hs : ReachA A s) {u : Tid} {f : Frame}
    (hf : f ∈ s.th u) (h : f.isTop = true) : u = mainOf s.g.tr := by
  refine (frames_invA (A := A) (GI := fun _ => True) (FI := fun g u f => f.isTop = true →
    u = mainOf g.tr) trivial (fun _ => rfl) ?_ (fun _ h => h) (fun _ _ _ h => h) ?_ ?_ ?_ ?_ hs).2 u f hf h
  · intro s t f rest ok v g' nx sp hr hA ht _ hF h
    have hm := mainOf_fstep h
    have hft : f ∈ s.th t := by rw [ht]; exact List.mem_cons_self
    refine ⟨trivial, fun u h' hh _ hi => ?_, fun _ hi => ?_, fun l e h' hh hi => ?_, fun h' e hi => ?_,
      fun _ h' hh hi => ?_⟩
    · rw [hm]; exact hF u h' hh hi
    · rw [hm]; exact hF t f hft hi
    · subst e
      rw [hm]
      refine hF t f hft ?_
      clear hF ht hft hm
      cases f <;> fstep_cases h <;>
        simp only [List.mem_cons, List.not_mem_nil, or_false] at hh <;>
        (try (rcases hh with hh | hh)) <;> (try subst hh) <;>
        first | rfl | (simp [Frame.isTop] at hi; done) | cases hh | skip
      all_goals (split at hh <;> simp_all [Frame.isTop])
    · subst e
      cases f <;> fstep_cases h <;> simp [Frame.isTop] at hi
    · rcases unwound_cases rest with e | ⟨_, n, _, _, e⟩ <;> rw [e] at hh <;> simp at hh
      · subst hh; simp [Frame.isTop] at hi
      · rcases hh with rfl | rfl <;> simp [Frame.isTop] at hi
  · intro s t i h' _ _ _ _ _ _ _ hp _ hi
    cases h' <;> simp [Frame.isTop, Frame.pushable] at hi hp
  · intro s t _ _ _ _ _ h' hh hi
    rcases unwound_cases (s.th t) with e | ⟨_, n, _, _, e⟩ <;> rw [e] at hh <;> simp at hh
    · subst hh; simp [Frame.isTop] at hi
    · rcases hh with rfl | rfl <;> simp [Frame.isTop] at hi
  · intro s t c d rest _ _ _ _ _
    exact ⟨trivial, fun _ _ _ => by simp [G.emit, mainOf, Ev.isForked]⟩
  · intro s t rest _ _ _ _ _
    exact ⟨trivial, fun _ _ _ => by simp [G.emit, mainOf, Ev.isForked]⟩

/-- The initial thread finds main's record. -/
theorem main_getTn {s : S} (hs : ReachA Clean s) (hb : born s.g.tr = false) :
    getTn s.g (mainOf s.g.tr) = some .main := by
  unfold getTn
  split
  · rename_i hu
    have := ((tsd_inv hs).1.2 hu hb).2.1
    rw [this]
    exact if_pos (mainRec_inv hs).1
  · rfl

/-- The field of main's record changes in monitor_main and in a new child only. -/
theorem bot_main_keep {g : G} {t : Tid} {ok : Bool} {b : NodeId → Option Tid} {f : Frame}
    (hs : f ≠ .start) (hr : f.resetting = false) (hfree : .main ∉ g.free)
    (hrec : f.threadRec ≠ some .main) : botStep g t ok b f .main = b .main := by
  cases f <;> first | rfl | skip
  · exact absurd rfl hs
  · simp [Frame.resetting] at hr
  · rename_i m
    have : .main ≠ m := fun e => hrec (by rw [e]; rfl)
    simp only [botStep]
    split
    · rfl
    · split
      · simp [setBot, this]
      · rfl
  · rename_i m
    have : .main ≠ m := fun e => hrec (by rw [e]; rfl)
    simp [botStep, setBot, this]
  · simp only [botStep]
    cases ha : alloc g ok with
    | none => rfl
    | some a =>
      have : .main ≠ a.n := fun e => (alloc_ne_main hfree ha).1 e.symm
      simp [setBot, this]
  · simp [Frame.resetting] at hr

/-- What a step that is not the beginning of monitor_main adds. -/
theorem atMain_go {g g' : G} {t : Tid} {ok : Bool} {v : Nat} {f : Frame} {nx : Next}
    {sp : Option Frame} (h : fstep g t ok v f = some (g', nx, sp)) (hf : f ≠ .start)
    (hf' : f ≠ .mainAt0) : (∀ u, (u, .atMain) ∈ g'.tr → (u, .atMain) ∈ g.tr) ∧
      (∀ l, nx = .go l → .mainAt0 ∉ l) ∧ sp ≠ some .mainAt0 := by
  cases f <;> fstep_cases h <;> first
    | (simp [G.emit, G.upd, listInit] at hf hf' ⊢; done)
    | skip
  all_goals simp [G.emit, G.upd, listInit]

/-- The bottom of the initial thread's stack. -/
def MainBot (x : B) : Prop :=
  ∃ n, getTn x.s.g (mainOf x.s.g.tr) = some n ∧ (x.bot n = some (mainOf x.s.g.tr) ∨
    (n = .main ∧ x.bot .main = none ∧ .mainAt0 ∉ x.s.th (mainOf x.s.g.tr) ∧
      ∀ u, (u, .atMain) ∉ x.s.g.tr))

theorem mainBot_go {x : B} (hx : ReachA Clean x.s) (hM : MainBot x) {t : Tid} {f : Frame}
    {rest : List Frame} {ok : Bool} {v : Nat} {r : Res} (ht : x.s.th t = f :: rest)
    (hf : fstep x.s.g t ok v f = some r) (hx' : ReachA Clean (applyRes x.s t rest r)) :
    MainBot ⟨applyRes x.s t rest r, botStep x.s.g t ok x.bot f⟩ := by
  obtain ⟨g', nx, sp⟩ := r
  have hft : f ∈ x.s.th t := by rw [ht]; exact List.mem_cons_self
  have hmo := mainOf_fstep hf
  have hg : (applyRes x.s t rest (g', nx, sp)).g.tr = g'.tr := by rw [applyRes_g]; split <;> rfl
  obtain ⟨n, h1, h2⟩ := hM
  cases hb : born x.s.g.tr with
  | true =>
    obtain ⟨b1, b2, b3, b4⟩ := birth_step hx ht hb
    -- a new child
    subst b1
    have hkeep : .mainAt0 ∉ x.s.th (mainOf x.s.g.tr) →
        .mainAt0 ∉ (applyRes x.s (mainOf x.s.g.tr) rest (g', nx, sp)).th (mainOf x.s.g.tr) := by
      intro h
      rw [ht] at h
      have hr : .mainAt0 ∉ rest := fun e => h (List.mem_cons_of_mem _ e)
      cases f <;> first | (simp [Frame.resetting] at b2; done) | skip
      all_goals fstep_cases hf <;> simp [applyRes, setTh, hr]
    have hat : (∀ u, (u, .atMain) ∉ x.s.g.tr) → ∀ u, (u, .atMain) ∉ g'.tr := by
      intro h u hu
      refine h u ((atMain_go hf ?_ ?_).1 u hu) <;> (intro e; subst e; cases b2)
    by_cases hn : g'.hasUsed = x.s.g.hasUsed ∧ g'.tsd = x.s.g.tsd ∧ g'.nodes = x.s.g.nodes ∧
        botStep x.s.g (mainOf x.s.g.tr) ok x.bot f = x.bot
    · obtain ⟨e1, e2, e3, e4⟩ := hn
      refine ⟨n, ?_, ?_⟩
      · simp only [hg, hmo]
        rw [applyRes_g]
        split <;> · simp only [getTn, e1, e2, e3]; exact h1
      · simp only [hg, hmo, e4]
        rcases h2 with h2 | ⟨h2, h3, h4, h5⟩
        · exact Or.inl h2
        · exact Or.inr ⟨h2, h3, hkeep h4, hat h5⟩
    · have hu : g'.hasUsed = false ∧ botStep x.s.g (mainOf x.s.g.tr) ok x.bot f .main = x.bot n := by
        clear hkeep hat hx' hg
        cases f <;> first | (simp [Frame.resetting] at b2; done) | skip
        · fstep_cases hf <;> first
            | exact absurd ⟨rfl, rfl, rfl, rfl⟩ hn
            | skip
        all_goals
          have hz : ∀ g : G, g.hasUsed = false → getTn g (mainOf x.s.g.tr) = some .main := by
            intro g hg; simp [getTn, hg]
          have key : resetBot x.s.g (mainOf x.s.g.tr) x.bot .main = x.bot n := by
            unfold resetBot
            split
            · rw [h1]
              simp only
              split
              · rename_i e; rw [e]
              · simp [setBot]
            · rename_i e
              have := hz x.s.g (by simpa using e)
              rw [this] at h1; injection h1 with h1; rw [h1]
          fstep_cases hf
          refine ⟨?_, key⟩
          simp only [G.emit, G.upd, resetList]
          split
          · rfl
          · rename_i e; simpa using e
      refine ⟨.main, ?_, ?_⟩
      · rw [applyRes_g]
        split <;> simp [getTn, hu.1]
      · simp only [hg, hmo, hu.2]
        rcases h2 with h2 | ⟨h2, h3, h4, h5⟩
        · exact Or.inl h2
        · subst h2; exact Or.inr ⟨trivial, h3, hkeep h4, hat h5⟩
  | false =>
    have hres : f.resetting = false := by
      cases hr : f.resetting with
      | false => rfl
      | true => have := ((base_inv hx).2 t f hft).2.1 hr; rw [hb] at this; cases this
    have hb' : born (applyRes x.s t rest (g', nx, sp)).g.tr = false := by
      rw [hg]; exact born_keep hf hb
    have e1 := main_getTn hx hb
    rw [e1] at h1; injection h1 with h1; subst h1
    refine ⟨.main, main_getTn hx' hb', ?_⟩
    simp only [hg, hmo]
    by_cases hst : f = .start
    · have := top_main hx hft (by rw [hst]; rfl)
      subst hst
      exact Or.inl (by simp [botStep, setBot, this])
    · obtain ⟨hfree, hrec⟩ := rec_inv hx
      rw [bot_main_keep hst hres hfree (hrec t f hft)]
      rcases h2 with h2 | ⟨_, h3, h4, h5⟩
      · exact Or.inl h2
      · refine Or.inr ⟨trivial, h3, ?_, ?_⟩
        · intro e
          by_cases ha : f = .mainAt0
          · have := top_main hx hft (by rw [ha]; rfl)
            rw [← this] at h4
            exact h4 (ha ▸ hft)
          · obtain ⟨_, k2, k3⟩ := atMain_go hf hst ha
            rcases applyRes_mem ht e with h | ⟨l, e1, _, h⟩ | ⟨h, _⟩ | ⟨_, h | ⟨_, _, _, _, h⟩⟩
            · exact h4 h
            · exact k2 l e1 h
            · exact k3 h
            · cases h
            · cases h
        · intro u hu
          by_cases ha : f = .mainAt0
          · have := top_main hx hft (by rw [ha]; rfl)
            rw [← this] at h4
            exact h4 (ha ▸ hft)
          · exact h5 u ((atMain_go hf hst ha).1 u hu)

/-- A step that only changes the stack of one thread. -/
theorem mainBot_push {x : B} (hM : MainBot x) {t : Tid} {l : List Frame}
    (hl : .mainAt0 ∈ l → .mainAt0 ∈ x.s.th t) :
    MainBot ⟨⟨x.s.g, setTh x.s.th t l⟩, x.bot⟩ := by
  obtain ⟨n, h1, h2⟩ := hM
  refine ⟨n, h1, h2.imp_right (fun ⟨k1, k2, k3, k4⟩ => ⟨k1, k2, fun e => ?_, k4⟩)⟩
  simp only [setTh] at e
  split at e
  · rename_i et
    rw [← et] at hl
    exact k3 (hl e)
  · exact k3 e

/-- A created thread that makes a call has its own bottom. -/
theorem created_bot {A : S → Lbl → Prop} {x : B} (hx : ReachB A x) (hc : ReachA Clean x.s) {t : Tid}
    {n : NodeId} (hm : Mine x.s.g t n) (hn : n ≠ .main) (h1 : x.s.th t ≠ [])
    (h2 : x.s.th t ≠ [.tdtor]) : x.bot n = some t := by
  obtain ⟨f, hf, k1, k2, k3⟩ := mine_claims hc hm hn h1 h2
  rw [bot_self hx hn]
  refine (self_inv hc hf k3).2 ?_ k2
  cases f <;> first | rfl | (cases k1; done)

theorem mainBot_fork {x : B} (hx : ReachB CleanKnown x) (hM : MainBot x) {t : Tid} {f : Frame}
    {rest l : List Frame} {e : Ev} (hk : getTn x.s.g t ≠ none) (ht : x.s.th t = f :: rest)
    (hf : f.resetting = false) (hd : f ≠ .tdtor) (he : e.isForked = true)
    (hl : .mainAt0 ∈ l → .mainAt0 ∈ rest) :
    MainBot ⟨⟨x.s.g.emit t e, setTh (fun _ => []) t l⟩, x.bot⟩ := by
  have hc := reachB_clean hx
  have hmo : mainOf (x.s.g.emit t e).tr = t := by simp [G.emit, mainOf, he]
  have hb := not_born hc ht hf
  by_cases em : t = mainOf x.s.g.tr
  · obtain ⟨n, h1, h2⟩ := hM
    rw [← em] at h1 h2
    refine ⟨n, ?_, ?_⟩
    · simp only [hmo]; exact h1
    · simp only [hmo]
      refine h2.imp_right (fun ⟨k1, k2, k3, k4⟩ => ⟨k1, k2, fun h => ?_, fun u hu => ?_⟩)
      · simp only [setTh, if_true] at h
        exact k3 (by rw [ht]; exact List.mem_cons_of_mem _ (hl h))
      · rcases List.mem_cons.1 hu with hu | hu
        · injection hu with _ hu; subst hu; cases he
        · exact k4 u hu
  · obtain ⟨n, hn⟩ := Option.ne_none_iff_exists'.1 hk
    have hm := getTn_mine hc hb (by rw [ht]; simp) hn
    have hnm : n ≠ .main := by
      rcases hm with ⟨_, e⟩ | ⟨e, _⟩
      · exact absurd e em
      · exact e
    refine ⟨n, ?_, Or.inl ?_⟩
    · simp only [hmo]; exact hn
    · simp only [hmo]
      exact created_bot hx hc hm hnm (by rw [ht]; simp)
        (by rw [ht]; intro e; injection e with e; exact hd e)

theorem mainBot_inv {x : B} (hx : ReachB CleanKnown x) : MainBot x := by
  induction hx with
  | init => exact ⟨.main, rfl, Or.inr ⟨rfl, rfl, by simp [mainOf], by simp⟩⟩
  | @next x x' l hr hA hn ih =>
    have hc' := reachB_clean (.next hr hA hn)
    have hc := reachB_clean hr
    obtain ⟨h1, ⟨t, f, rest, ok, v, r, rfl, ht, hf, e1, e2⟩ | ⟨h2, e2⟩⟩ := nextB_cases hn
    · obtain ⟨s', b'⟩ := x'
      simp only at e1 e2
      subst e1; subst e2
      exact mainBot_go hc ih ht hf hc'
    · have hm := move_of_next h1
      obtain ⟨s', b'⟩ := x'
      simp only at e2 hm
      subst e2
      cases hm with
      | go => exact absurd rfl (h2 _ _ _)
      | @call t f rest a hd ht hf =>
        refine mainBot_push ih (fun h => ?_)
        rcases List.mem_append.1 h with h | h
        · cases a <;> simp [Api.frames] at h
          split at h <;> simp at h
        · rw [ht]; exact h
      | @unwind t f rest hd ht hf =>
        refine mainBot_push ih (fun h => ?_)
        rcases unwound_cases (f :: rest) with e | ⟨_, n, _, _, e⟩ <;> rw [e] at h <;> simp at h
      | @deliver t f rest hd ht =>
        refine mainBot_push ih (fun h => ?_)
        rw [ht]; simpa using h
      | @interrupt t f rest hd ht =>
        refine mainBot_push ih (fun h => ?_)
        rw [ht]; simpa using h
      | @fork t c d rest hd ht =>
        exact mainBot_fork hr ih hA.2 ht rfl (by simp) rfl (by simp)
      | @realFork t rest hd ht =>
        exact mainBot_fork hr ih hA.2 ht rfl (by simp) rfl (by simp)

end Libmonitor.Proc
