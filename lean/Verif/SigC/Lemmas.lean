import Verif.SigC.Spec

/-! # Invariants for the claim on signal actions -/

namespace Libmonitor.SigC

/-! ## Histories -/

/-- Events that change no action and end no call. -/
def Ev.neutral : Ev → Bool
  | .call _ _ _ | .ret _ _ | .clientCall _ _ => false
  | _ => true

theorem current_neutral {a : Act} {t : Tid} {e : Ev} {tr : Hist} (h : e.neutral = true) :
    current a ((t, e) :: tr) = current a tr := by
  cases e <;> simp_all [current, Ev.neutral]

theorem current_ret {a : Act} {t : Tid} {c : Nat} {r : Option Act} {tr : Hist} :
    current a ((t, .ret c r) :: tr) = current a tr := rfl

theorem lastKern_neutral {k : Kern} {t : Tid} {e : Ev} {tr : Hist} (h : e.neutral = true) :
    lastKern k ((t, e) :: tr) = lastKern k tr := by
  cases e <;> simp_all [lastKern, Ev.neutral]

theorem lastClient_neutral {t : Tid} {e : Ev} {tr : Hist} (h : e.neutral = true) :
    lastClient ((t, e) :: tr) = lastClient tr := by
  cases e <;> simp_all [lastClient, Ev.neutral]

theorem before_neutral {c : Nat} {t : Tid} {e : Ev} {tr : Hist} (h : e.neutral = true) :
    before c ((t, e) :: tr) = before c tr := by
  cases e <;> simp_all [before, Ev.neutral]

theorem openCall_neutral {c : Nat} {t : Tid} {e : Ev} {tr : Hist} (h : e.neutral = true) :
    openCall c ((t, e) :: tr) ↔ openCall c tr := by
  cases e <;> simp_all [openCall, Ev.neutral]

/-- The calls and returns in the history have numbers below the counter, and every thread that
is not at its start occurs in the history. -/
structure Numbered (s : S) : Prop where
  call : ∀ t c act o, (t, Ev.call c act o) ∈ s.g.tr → c < s.g.ncall
  ret : ∀ t c r, (t, Ev.ret c r) ∈ s.g.tr → c < s.g.ncall
  hist : ∀ u, s.th u ≠ [.app] → ∃ e, (u, e) ∈ s.g.tr

/-! ## The frames of a call, when there is one call at a time -/

/-- The call is the last one, and `p` and `pk` are what it found. -/
def Base (a : Act) (k : Kern) (g : G) (p : Act) (pk : Kern) (c : Nat) (act : Option Act) : Prop :=
  openCall c g.tr ∧ current a (before c g.tr) = p ∧ current a g.tr = act.getD p ∧
    lastKern k g.tr = (act.map Act.kern).getD pk ∧ g.client = lastClient g.tr

def old (tr : Hist) (c : Nat) (p : Act) (r : Option Act) : Prop :=
  (∀ x, r = some x → x = p) ∧ ((∃ t act, (t, Ev.call c act true) ∈ tr) → r ≠ none)

/-- What holds of the global variables while a call has got as far as this frame. -/
def Fit (a : Act) (k : Kern) (g : G) (p : Act) (pk : Kern) : Frame → Prop
  | .o0 c act => Base a k g p pk c act ∧ g.appl = p ∧ g.kern = pk ∧ g.sys = pk
  | .o1 c act h => Base a k g p pk c act ∧ g.appl = p ∧ g.kern = pk ∧ g.sys = pk ∧ h = p.h
  | .o2 c act h fl => Base a k g p pk c act ∧ g.appl = p ∧ g.kern = pk ∧ g.sys = pk ∧
      h = p.h ∧ fl = p.flags
  | .s c act r => Base a k g p pk c act ∧ g.appl = p ∧ g.kern = pk ∧ g.sys = pk ∧ old g.tr c p r
  | .s0 c b r => Base a k g p pk c (some b) ∧ g.appl = p ∧ g.kern = pk ∧ g.sys = pk ∧ old g.tr c p r
  | .s1 c b r => Base a k g p pk c (some b) ∧ g.appl = ⟨b.h, p.flags, p.mask⟩ ∧ g.kern = pk ∧
      g.sys = pk ∧ old g.tr c p r
  | .s2 c b r => Base a k g p pk c (some b) ∧ g.appl = ⟨b.h, b.flags, p.mask⟩ ∧ g.kern = pk ∧
      g.sys = pk ∧ old g.tr c p r
  | .k0 c b r => Base a k g p pk c (some b) ∧ g.appl = b ∧ g.kern = pk ∧ g.sys = pk ∧ old g.tr c p r
  | .k1 c b r => Base a k g p pk c (some b) ∧ g.appl = b ∧ g.kern = ⟨b.flags, pk.mask⟩ ∧
      g.sys = pk ∧ old g.tr c p r
  | .k2 c r => ∃ b, Base a k g p pk c (some b) ∧ g.appl = b ∧ g.kern = b.kern ∧ old g.tr c p r
  | .ret c r => ∃ act, Base a k g p pk c act ∧ g.appl = current a g.tr ∧
      g.kern = lastKern k g.tr ∧ g.sys = lastKern k g.tr ∧ old g.tr c p r
  | .c0 h act => g.appl = current a g.tr ∧ h = lastClient g.tr ∧ g.kern = pk ∧ g.sys = pk ∧
      lastKern k g.tr = (act.map Act.kern).getD pk
  | .c1 b => g.appl = current a g.tr ∧ g.client = lastClient g.tr ∧ g.kern = pk ∧ g.sys = pk ∧
      lastKern k g.tr = b.kern
  | .c2 b => g.appl = current a g.tr ∧ g.client = lastClient g.tr ∧
      g.kern = ⟨b.flags, pk.mask⟩ ∧ g.sys = pk ∧ lastKern k g.tr = b.kern
  | .c3 => g.appl = current a g.tr ∧ g.client = lastClient g.tr ∧ g.kern = lastKern k g.tr
  | .cret => g.appl = current a g.tr ∧ g.client = lastClient g.tr ∧ g.kern = lastKern k g.tr ∧
      g.sys = lastKern k g.tr
  | _ => False

/-- Everything is as set last. -/
def Done (a : Act) (k : Kern) (g : G) : Prop :=
  g.appl = current a g.tr ∧ g.client = lastClient g.tr ∧ g.kern = lastKern k g.tr ∧
    g.sys = lastKern k g.tr

/-- The frames of calls on a stack. -/
def calls (st : List Frame) : List Frame := st.filter Frame.inCall

/-- At most one call is in progress, and it fits. -/
def One (a : Act) (k : Kern) (s : S) : Prop :=
  ((∀ u, calls (s.th u) = []) ∧ Done a k s.g) ∨
    ∃ o f p pk, calls (s.th o) = [f] ∧ (∀ u, u ≠ o → calls (s.th u) = []) ∧ Fit a k s.g p pk f

theorem old_neutral {tr : Hist} {c : Nat} {p : Act} {r : Option Act} {t : Tid} {e : Ev}
    (he : e.neutral = true) : old ((t, e) :: tr) c p r ↔ old tr c p r := by
  cases e <;> simp_all [old, Ev.neutral]

theorem fit_neutral {a : Act} {k : Kern} {g : G} {p : Act} {pk : Kern} {f : Frame} {t : Tid}
    {e : Ev} (he : e.neutral = true) (h : Fit a k g p pk f) : Fit a k (g.log t e) p pk f := by
  cases f <;>
    simp_all [Fit, Base, G.log, current_neutral he, lastKern_neutral he, lastClient_neutral he,
      before_neutral he, openCall_neutral he, old_neutral he]

theorem done_neutral {a : Act} {k : Kern} {g : G} {t : Tid}
    {e : Ev} (he : e.neutral = true) (h : Done a k g) : Done a k (g.log t e) := by
  simp_all [Done, G.log, current_neutral he, lastKern_neutral he, lastClient_neutral he]

/-- A step of a frame outside of calls. -/
theorem fstep_out {g g' : G} {t : Tid} {ok : Bool} {f : Frame} {fs : List Frame}
    (h : fstep g t ok f = some (g', fs)) (hf : f.inCall = false) :
    calls fs = [] ∧ (g' = g ∨ ∃ e, e.neutral = true ∧ g' = g.log t e ∧
      match e with
      | .run h _ => h = g.appl.h
      | .ignored => 1 = g.appl.h
      | .dflt => 0 = g.appl.h
      | _ => True) := by
  cases f <;> simp only [Frame.inCall, reduceCtorEq] at hf <;> simp only [fstep, reduceCtorEq] at h
  all_goals (try split at h)
  all_goals (simp only [Option.some.injEq, Prod.mk.injEq] at h; obtain ⟨rfl, rfl⟩ := h)
  all_goals refine ⟨by (try split) <;> rfl, ?_⟩
  all_goals first
    | exact .inl rfl
    | exact .inr ⟨_, rfl, rfl, trivial⟩
    | exact .inr ⟨_, rfl, rfl, rfl⟩
    | exact .inr ⟨_, rfl, rfl, by simp_all⟩

/-- A step of a call. -/
theorem fstep_in {a : Act} {k : Kern} {g g' : G} {t : Tid} {ok : Bool} {f : Frame}
    {p : Act} {pk : Kern} {fs : List Frame}
    (h : fstep g t ok f = some (g', fs)) (hf : Fit a k g p pk f) :
    (∃ f', fs = [f'] ∧ f'.inCall = true ∧ Fit a k g' p pk f' ∧ g'.tr = g.tr) ∨
      (fs = [] ∧ Done a k g' ∧ ∃ e, g'.tr = (t, e) :: g.tr ∧
        match e with
        | .ret c r => openCall c g.tr ∧ Returned a c r g.tr
        | .clientRet => True
        | _ => False) := by
  cases f <;> simp only [Fit] at hf <;> simp only [fstep] at h
  case s c act r =>
    simp only [Option.some.injEq, Prod.mk.injEq] at h
    obtain ⟨rfl, rfl⟩ := h
    cases act with
    | none => exact .inl ⟨_, rfl, rfl, ⟨none, by simp_all [Base]⟩, rfl⟩
    | some b => exact .inl ⟨_, rfl, rfl, by simp_all [Fit], rfl⟩
  case c0 h0 act =>
    simp only [Option.some.injEq, Prod.mk.injEq] at h
    obtain ⟨rfl, rfl⟩ := h
    cases act with
    | none => exact .inl ⟨_, rfl, rfl, by simp_all [Fit], rfl⟩
    | some b => exact .inl ⟨_, rfl, rfl, by simp_all [Fit], rfl⟩
  case ret c r =>
    simp only [Option.some.injEq, Prod.mk.injEq] at h
    obtain ⟨rfl, rfl⟩ := h
    obtain ⟨act, hb, h1, h2, h3, h4⟩ := hf
    refine .inr ⟨rfl, ⟨h1, ?_, h2, h3⟩, _, rfl, hb.1, ?_⟩
    · exact hb.2.2.2.2
    · simp only [Returned, hb.2.1]; exact h4
  case cret =>
    simp only [Option.some.injEq, Prod.mk.injEq] at h
    obtain ⟨rfl, rfl⟩ := h
    exact .inr ⟨rfl, ⟨hf.1, hf.2.1, hf.2.2.1, hf.2.2.2⟩, _, rfl, trivial⟩
  all_goals
    simp only [Option.some.injEq, Prod.mk.injEq] at h
    obtain ⟨rfl, rfl⟩ := h
    refine .inl ⟨_, rfl, rfl, ?_, rfl⟩
  case k1 c b r =>
    simp only [Fit]
    refine ⟨b, hf.1, hf.2.1, ?_, hf.2.2.2.2⟩
    simp [hf.2.2.1, Act.kern]
  case k2 c r =>
    obtain ⟨b, hb, h1, h2, h3⟩ := hf
    refine ⟨some b, hb, ?_, ?_, ?_, h3⟩
    · simpa [h1] using hb.2.2.1.symm
    · simpa [h2] using hb.2.2.2.1.symm
    · simpa [h2] using hb.2.2.2.1.symm
  case o2 => simp_all [Fit, Base, old]
  all_goals simp_all [Fit, Base, Act.kern]

/-- The handler in force is that of the last action, or of the one before an open call. -/
theorem fit_h {a : Act} {k : Kern} {g : G} {p : Act} {pk : Kern} {f : Frame}
    (h : Fit a k g p pk f) : g.appl.h = (current a g.tr).h ∨
      ∃ c, openCall c g.tr ∧ g.appl.h = (current a (before c g.tr)).h := by
  have new : ∀ {b : Act} {c}, Base a k g p pk c (some b) → g.appl.h = b.h →
      g.appl.h = (current a g.tr).h := fun hb h => by rw [h, hb.2.2.1]; rfl
  have ol : ∀ {act c}, Base a k g p pk c act → g.appl = p →
      ∃ c, openCall c g.tr ∧ g.appl.h = (current a (before c g.tr)).h :=
    fun {act c} hb h => ⟨c, hb.1, by rw [h, hb.2.1]⟩
  cases f <;> simp only [Fit] at h
  case o0 => exact .inr (ol h.1 h.2.1)
  case o1 => exact .inr (ol h.1 h.2.1)
  case o2 => exact .inr (ol h.1 h.2.1)
  case s => exact .inr (ol h.1 h.2.1)
  case s0 => exact .inr (ol h.1 h.2.1)
  case s1 => exact .inl (new h.1 (by rw [h.2.1]))
  case s2 => exact .inl (new h.1 (by rw [h.2.1]))
  case k0 => exact .inl (new h.1 (by rw [h.2.1]))
  case k1 => exact .inl (new h.1 (by rw [h.2.1]))
  case k2 => obtain ⟨b, h1, h2, _⟩ := h; exact .inl (new h1 (by rw [h2]))
  case ret => obtain ⟨b, h1, h2, _⟩ := h; exact .inl (by rw [h2])
  all_goals exact .inl (by rw [h.1])

theorem one_h {a : Act} {k : Kern} {s : S} (h : One a k s) :
    s.g.appl.h = (current a s.g.tr).h ∨
      ∃ c, openCall c s.g.tr ∧ s.g.appl.h = (current a (before c s.g.tr)).h := by
  rcases h with ⟨_, h⟩ | ⟨o, f, p, pk, _, _, h⟩
  · exact .inl (by rw [h.1])
  · exact fit_h h

/-! ## One call at a time -/

/-- What a step does to the stack of the thread and to the global variables. -/
theorem next_cases {s s' : S} {l : Lbl} (h : next s l = some s') :
    ∃ g' st, s' = { g := g', th := fun u => if u = l.t then st else s.th u } ∧
      ((∃ ok f fs rest, l.i = .go ok ∧ s.th l.t = f :: rest ∧ fstep s.g l.t ok f = some (g', fs) ∧
          st = fs ++ rest) ∨
       (∃ act o rest, l.i = .sigaction act o ∧ s.th l.t = .app :: rest ∧
          g' = ({ s.g with ncall := s.g.ncall + 1 } : G).log l.t (.call s.g.ncall act o) ∧
          st = (if o then .o0 s.g.ncall act else .s s.g.ncall act none) :: .app :: rest) ∨
       (∃ hd act rest, l.i = .client hd act ∧ s.th l.t = .app :: rest ∧
          g' = s.g.log l.t (.clientCall hd act) ∧ st = .c0 hd act :: .app :: rest) ∨
       (∃ f rest, l.i = .back ∧ s.th l.t = .app :: f :: rest ∧ g' = s.g ∧ st = f :: rest) ∨
       (l.i = .deliver ∧ g' = s.g.log l.t .deliver ∧ st = .d0 :: s.th l.t) ∨
       (∃ rest, l.i = .unwind ∧ s.th l.t = .app :: rest ∧ g' = s.g ∧ st = [.app])) := by
  obtain ⟨t, i⟩ := l
  simp only [next] at h
  split at h
  · rename_i ok f rest hst
    cases hf : fstep s.g t ok f with
    | none => simp [hf] at h
    | some r =>
      simp only [hf, Option.map_some, Option.some.injEq] at h
      exact ⟨r.1, r.2 ++ rest, h.symm, .inl ⟨ok, f, r.2, rest, rfl, hst, hf, rfl⟩⟩
  · rename_i act o rest hst
    simp only [Option.some.injEq] at h
    exact ⟨_, _, h.symm, .inr (.inl ⟨act, o, rest, rfl, hst, rfl, rfl⟩)⟩
  · rename_i hd act rest hst
    simp only [Option.some.injEq] at h
    exact ⟨_, _, h.symm, .inr (.inr (.inl ⟨hd, act, rest, rfl, hst, rfl, rfl⟩))⟩
  · rename_i f rest hst
    simp only [Option.some.injEq] at h
    exact ⟨_, _, h.symm, .inr (.inr (.inr (.inl ⟨f, rest, rfl, hst, rfl, rfl⟩)))⟩
  · simp only [Option.some.injEq] at h
    exact ⟨_, _, h.symm, .inr (.inr (.inr (.inr (.inl ⟨rfl, rfl, rfl⟩))))⟩
  · rename_i rest hst
    simp only [Option.some.injEq] at h
    exact ⟨_, _, h.symm, .inr (.inr (.inr (.inr (.inr ⟨rest, rfl, hst, rfl, rfl⟩))))⟩
  · simp at h

/-- A step of a frame logs at most one event, and returns are of calls made. -/
theorem fstep_tr {g g' : G} {t : Tid} {ok : Bool} {f : Frame} {fs : List Frame}
    (h : fstep g t ok f = some (g', fs)) : g'.ncall = g.ncall ∧
      (g'.tr = g.tr ∨ ∃ e, g'.tr = (t, e) :: g.tr ∧ (∀ c act o, e ≠ .call c act o) ∧
        ∀ c r, e = .ret c r → f = .ret c r) := by
  cases f <;> simp only [fstep, reduceCtorEq] at h
  all_goals (try split at h)
  all_goals (simp only [Option.some.injEq, Prod.mk.injEq] at h; obtain ⟨rfl, rfl⟩ := h)
  all_goals refine ⟨rfl, ?_⟩
  all_goals first
    | exact .inl rfl
    | (refine .inr ⟨_, rfl, ?_, ?_⟩ <;> simp; done)

theorem calls_nil {st : List Frame} : calls st = [] ↔ ∀ f ∈ st, f.inCall = false := by
  simp [calls]

theorem calls_append {x y : List Frame} : calls (x ++ y) = calls x ++ calls y := by
  simp [calls]

theorem calls_cons {f : Frame} {y : List Frame} :
    calls (f :: y) = if f.inCall then f :: calls y else calls y := by
  simp [calls, List.filter_cons]

theorem hist_step {s s' : S} {l : Lbl} (hn : Numbered s) (h : next s l = some s') :
    ∀ u, s'.th u ≠ [.app] → ∃ e, (u, e) ∈ s'.g.tr := by
  obtain ⟨g', st, rfl, hc⟩ := next_cases h
  have sub : ∀ x, x ∈ s.g.tr → x ∈ g'.tr := by
    intro x hx
    rcases hc with ⟨ok, f, fs, rest, _, _, hf, _⟩ | ⟨act, o, rest, _, _, rfl, _⟩ |
      ⟨hd, act, rest, _, _, rfl, _⟩ | ⟨f, rest, _, _, rfl, _⟩ | ⟨_, rfl, _⟩ | ⟨rest, _, _, rfl, _⟩
    · rcases (fstep_tr hf).2 with e | ⟨e, e', _⟩
      · rw [e]; exact hx
      · rw [e']; exact List.mem_cons_of_mem _ hx
    · exact List.mem_cons_of_mem _ hx
    · exact List.mem_cons_of_mem _ hx
    · exact hx
    · exact List.mem_cons_of_mem _ hx
    · exact hx
  intro u hu
  simp only at hu ⊢
  split at hu
  · rename_i e
    subst e
    by_cases hold : s.th l.t = [.app]
    · rcases hc with ⟨ok, f, fs, rest, _, e, hf, _⟩ | ⟨act, o, rest, _, _, rfl, _⟩ |
        ⟨hd, act, rest, _, _, rfl, _⟩ | ⟨f, rest, _, e, rfl, _⟩ | ⟨_, rfl, _⟩ | ⟨rest, _, _, rfl, e⟩
      · rw [hold] at e
        cases e
        simp [fstep] at hf
      · exact ⟨_, List.mem_cons_self⟩
      · exact ⟨_, List.mem_cons_self⟩
      · rw [hold] at e; simp at e
      · exact ⟨_, List.mem_cons_self⟩
      · exact absurd e hu
    · obtain ⟨e, he⟩ := hn.hist _ hold
      exact ⟨e, sub _ he⟩
  · obtain ⟨e, he⟩ := hn.hist _ hu
    exact ⟨e, sub _ he⟩

theorem one_inv {a : Act} {k : Kern} {s : S} (h : ReachA OneCall a k s) :
    Numbered s ∧ One a k s ∧ Always (Either a) s.g.tr := by
  induction h with
  | init =>
    refine ⟨⟨?_, ?_, ?_⟩, .inl ⟨?_, ?_⟩, ?_⟩
    · intro _ _ _ _ h; cases h
    · intro _ _ _ h; cases h
    · intro u hu; exact absurd rfl hu
    · intro u; rfl
    · exact ⟨rfl, rfl, rfl, rfl⟩
    · trivial
  | @step s s' l _ hA hs ih =>
    obtain ⟨hn, hone, hal⟩ := ih
    have hh := hist_step hn hs
    obtain ⟨g', st, rfl, hc⟩ := next_cases hs
    -- the stack of the thread keeps its frames of calls, the variables their values
    have keep : calls st = calls (s.th l.t) → (g' = s.g ∨ ∃ e, e.neutral = true ∧
        g' = s.g.log l.t e) →
        One a k { g := g', th := fun u => if u = l.t then st else s.th u } := by
      intro hst hg
      have hth : ∀ u, calls (if u = l.t then st else s.th u) = calls (s.th u) := by
        intro u; split
        · rename_i e; rw [e]; exact hst
        · rfl
      rcases hone with ⟨h1, h2⟩ | ⟨o, f, p, pk, h1, h2, h3⟩
      · refine .inl ⟨fun u => (hth u).trans (h1 u), ?_⟩
        rcases hg with rfl | ⟨e, he, rfl⟩
        · exact h2
        · exact done_neutral he h2
      · refine .inr ⟨o, f, p, pk, (hth o).trans h1, fun u hu => (hth u).trans (h2 u hu), ?_⟩
        rcases hg with rfl | ⟨e, he, rfl⟩
        · exact h3
        · exact fit_neutral he h3
    have num : ∀ {e}, e.neutral = true → g' = s.g.log l.t e →
        Numbered { g := g', th := fun u => if u = l.t then st else s.th u } := by
      rintro e he rfl
      refine ⟨?_, ?_, hh⟩
      · intro t c act o hm
        rcases List.mem_cons.1 hm with e' | hm
        · cases e'; simp [Ev.neutral] at he
        · exact hn.call t c act o hm
      · intro t c act hm
        rcases List.mem_cons.1 hm with e' | hm
        · cases e'; simp [Ev.neutral] at he
        · exact hn.ret t c act hm
    rcases hc with ⟨ok, f, fs, rest, hi, hst, hf, rfl⟩ | ⟨act, o, rest, hi, hst, rfl, rfl⟩ |
      ⟨hd, act, rest, hi, hst, rfl, rfl⟩ | ⟨f, rest, hi, hst, rfl, rfl⟩ | ⟨hi, rfl, rfl⟩ |
      ⟨rest, hi, hst, rfl, rfl⟩
    · cases hin : f.inCall with
      | false =>
        obtain ⟨h1, h2⟩ := fstep_out hf hin
        have hcs : calls (fs ++ rest) = calls (s.th l.t) := by
          rw [hst, calls_append, h1, calls_cons, hin]; rfl
        have hh' := one_h hone
        rcases h2 with rfl | ⟨e, he, rfl, hv⟩
        · exact ⟨⟨hn.call, hn.ret, hh⟩, keep hcs (.inl rfl), hal⟩
        · refine ⟨num he rfl, keep hcs (.inr ⟨e, he, rfl⟩), ?_, hal⟩
          cases e <;> simp only [Ev.neutral, reduceCtorEq] at he <;> try trivial
          · subst hv; exact hh'
          · simp only at hv; rw [← hv] at hh'; exact hh'
          · simp only at hv; rw [← hv] at hh'; exact hh'
      | true =>
        rcases hone with ⟨h1, h2⟩ | ⟨o, f', p, pk, h1, h2, h3⟩
        · have := h1 l.t
          rw [hst, calls_cons, hin] at this
          simp at this
        · have ho : l.t = o := by
            apply Classical.byContradiction
            intro hne
            have := h2 l.t hne
            rw [hst, calls_cons, hin] at this
            simp at this
          subst ho
          rw [hst, calls_cons, hin] at h1
          simp only [if_true, List.cons.injEq] at h1
          obtain ⟨rfl, hrest⟩ := h1
          have hnc := (fstep_tr hf).1
          rcases fstep_in hf h3 with ⟨f', rfl, hf', hfit, htr⟩ | ⟨rfl, hd, e, htr, he⟩
          · refine ⟨⟨?_, ?_, hh⟩, .inr ⟨l.t, f', p, pk, ?_, ?_, hfit⟩, ?_⟩
            · simp only [htr, hnc]; exact hn.call
            · simp only [htr, hnc]; exact hn.ret
            · simp [calls_cons, hf', hrest]
            · intro u hu; simp only [if_neg hu]; exact h2 u hu
            · simp only [htr]; exact hal
          · refine ⟨⟨?_, ?_, hh⟩, .inl ⟨?_, hd⟩, ?_⟩
            · simp only [htr, hnc]
              intro t c act o hm
              rcases List.mem_cons.1 hm with e' | hm
              · cases e'; exact he.elim
              · exact hn.call t c act o hm
            · simp only [htr, hnc]
              intro t c r hm
              rcases List.mem_cons.1 hm with e' | hm
              · cases e'
                obtain ⟨⟨⟨t', act, o, hm⟩, _⟩, _⟩ := he
                exact hn.call _ _ _ _ hm
              · exact hn.ret t c r hm
            · intro u
              simp only
              split
              · simpa using hrest
              · rename_i hu; exact h2 u hu
            · simp only [htr]
              refine ⟨?_, hal⟩
              cases e <;> try exact he.elim
              · exact he.2
              · trivial
    · -- a new call
      simp only [OneCall, hi] at hA
      have hnone : ∀ u, calls (s.th u) = [] := by
        intro u
        by_cases hu : s.th u = [.app]
        · rw [hu]; rfl
        · obtain ⟨e, he⟩ := hn.hist u hu
          exact calls_nil.2 (hA.1 _ he)
      have hdone : Done a k s.g := by
        rcases hone with ⟨_, h⟩ | ⟨o, f, p, pk, h1, _⟩
        · exact h
        · rw [hnone o] at h1; simp at h1
      have hfresh : ∀ t r, (t, Ev.ret s.g.ncall r) ∉ s.g.tr := fun t r hm =>
        absurd (hn.ret _ _ _ hm) (Nat.lt_irrefl _)
      have hbase : Base a k (({ s.g with ncall := s.g.ncall + 1 } : G).log l.t
          (.call s.g.ncall act o)) (current a s.g.tr) (lastKern k s.g.tr) s.g.ncall act := by
        refine ⟨⟨⟨l.t, act, o, List.mem_cons_self⟩, ?_⟩, ?_, ?_, ?_, ?_⟩
        · intro t r hm
          rcases List.mem_cons.1 hm with e | hm
          · cases e
          · exact hfresh t r hm
        · simp [G.log, before]
        · cases act <;> rfl
        · cases act <;> rfl
        · exact hdone.2.1
      refine ⟨⟨?_, ?_, hh⟩, .inr ⟨l.t, if o then .o0 s.g.ncall act else .s s.g.ncall act none,
        current a s.g.tr, lastKern k s.g.tr, ?_, ?_, ?_⟩, trivial, hal⟩
      · intro t c b o hm
        rcases List.mem_cons.1 hm with e | hm
        · cases e; exact Nat.lt_succ_self _
        · exact Nat.lt_succ_of_lt (hn.call t c b o hm)
      · intro t c b hm
        rcases List.mem_cons.1 hm with e | hm
        · cases e
        · exact Nat.lt_succ_of_lt (hn.ret t c b hm)
      · have := hnone l.t
        rw [hst] at this
        simp only [if_true]
        rw [calls_cons, this]
        cases o <;> rfl
      · intro u hu; simp only [if_neg hu]; exact hnone u
      · cases o
        · refine ⟨hbase, hdone.1, hdone.2.2.1, hdone.2.2.2, by simp, ?_⟩
          rintro ⟨t, b, hm⟩
          rcases List.mem_cons.1 hm with e | hm
          · cases e
          · exact absurd (hn.call _ _ _ _ hm) (Nat.lt_irrefl _)
        · exact ⟨hbase, hdone.1, hdone.2.2.1, hdone.2.2.2⟩
    · simp only [OneCall, hi] at hA
      have hnone : ∀ u, calls (s.th u) = [] := by
        intro u
        by_cases hu : s.th u = [.app]
        · rw [hu]; rfl
        · obtain ⟨e, he⟩ := hn.hist u hu
          exact calls_nil.2 (hA.1 _ he)
      have hdone : Done a k s.g := by
        rcases hone with ⟨_, h⟩ | ⟨o, f, p, pk, h1, _⟩
        · exact h
        · rw [hnone o] at h1; simp at h1
      refine ⟨⟨?_, ?_, hh⟩, .inr ⟨l.t, .c0 hd act, current a s.g.tr, lastKern k s.g.tr, ?_, ?_, ?_⟩,
        trivial, hal⟩
      · intro t c b o hm
        rcases List.mem_cons.1 hm with e | hm
        · cases e
        · exact hn.call t c b o hm
      · intro t c b hm
        rcases List.mem_cons.1 hm with e | hm
        · cases e
        · exact hn.ret t c b hm
      · have := hnone l.t
        rw [hst] at this
        simp only [if_true]
        rw [calls_cons, this]
        rfl
      · intro u hu; simp only [if_neg hu]; exact hnone u
      · refine ⟨hdone.1, rfl, hdone.2.2.1, hdone.2.2.2, ?_⟩
        cases act <;> rfl
    · exact ⟨⟨hn.call, hn.ret, hh⟩, keep (by rw [hst]; rfl) (.inl rfl), hal⟩
    · exact ⟨num (e := .deliver) rfl rfl, keep rfl (.inr ⟨_, rfl, rfl⟩), trivial, hal⟩
    · simp only [OneCall, hi] at hA
      exact ⟨⟨hn.call, hn.ret, hh⟩, keep (by rw [calls_nil.2 hA]; rfl) (.inl rfl), hal⟩

/-! ## One thread at a time -/

/-- The frames below the innermost one. -/
def under : List Frame → Bool
  | [] => false
  | [f] => f == .app
  | f :: r => (f == .app || f == .d1) && under r

/-- `Passed`, with the variable instead of the history. -/
def PassedG (t : Tid) (g : G) : Prop :=
  lastOwn t g.tr = some .deliver ∧ g.client = 0 ∨ lastOwn t g.tr = some (.clientDid false)

/-- What the handler has found out so far. -/
def Seen (t : Tid) (g : G) : Frame → Prop
  | .app => ¬ Pending t g.tr
  | .d0 => lastOwn t g.tr = some .deliver
  | .d0' => lastOwn t g.tr = some .deliver ∧ g.client ≠ 0
  | .d2 => PassedG t g
  | .d3 => PassedG t g ∧ g.appl.h ≠ 1
  | .d4 => PassedG t g ∧ g.appl.h ≠ 1 ∧ g.appl.h ≠ 0
  | .d5 info => PassedG t g ∧ g.appl.h ≠ 1 ∧ g.appl.h ≠ 0 ∧ info = g.appl.flags.info
  | _ => True

structure Solo (s : S) : Prop where
  shape : ∀ u, s.th u = [.app] ∨ ∃ f r, s.th u = f :: r ∧ under r = true
  solo : ∀ u v, idle (s.th u) = false → idle (s.th v) = false → u = v
  seen : ∀ u f r, s.th u = f :: r → Seen u s.g f

theorem under_calls {r : List Frame} (h : under r = true) : calls r = [] := by
  induction r with
  | nil => rfl
  | cons f r ih =>
    cases r with
    | nil => simp only [under, beq_iff_eq] at h; subst h; rfl
    | cons f' r' =>
      simp only [under, Bool.and_eq_true, Bool.or_eq_true, beq_iff_eq] at h
      rw [calls_cons, ih h.2]
      rcases h.1 with rfl | rfl <;> rfl

/-- What is exposed when the innermost frame goes. -/
theorem under_cons {r : List Frame} (h : under r = true) :
    r = [.app] ∨ ∃ f r', r = f :: r' ∧ under r' = true ∧ (f = .app ∨ f = .d1) := by
  cases r with
  | nil => simp [under] at h
  | cons f r =>
    cases r with
    | nil => simp only [under, beq_iff_eq] at h; subst h; exact .inl rfl
    | cons f' r' =>
      simp only [under, Bool.and_eq_true, Bool.or_eq_true, beq_iff_eq] at h
      exact .inr ⟨f, _, rfl, h.2, h.1⟩

theorem idle_calls {s : S} (h : Solo s) {u : Tid} (hi : idle (s.th u) = true) :
    calls (s.th u) = [] := by
  rcases h.shape u with e | ⟨f, r, e, hr⟩
  · rw [e]; rfl
  · rw [e] at hi ⊢
    cases f <;> simp only [idle, reduceCtorEq] at hi
    rw [calls_cons, under_calls hr]; rfl

theorem alone_one {s s' : S} {l : Lbl} (hs : Solo s) (hA : Alone s l) (h : next s l = some s') :
    OneCall s l := by
  obtain ⟨g', st, rfl, hc⟩ := next_cases h
  have key : ∀ {rest}, s.th l.t = .app :: rest → ∀ f ∈ s.th l.t, f.inCall = false := fun e =>
    calls_nil.1 (idle_calls hs (by rw [e]; rfl))
  have others : ∀ {rest}, s.th l.t = .app :: rest → ∀ x ∈ s.g.tr, ∀ f ∈ s.th x.1,
      f.inCall = false := by
    intro rest e x hx
    by_cases hu : x.1 = l.t
    · rw [hu]; exact key e
    · exact calls_nil.1 (idle_calls hs (hA.1 x hx hu))
  rcases hc with ⟨ok, f, fs, rest, hi, _⟩ | ⟨act, o, rest, hi, hst, _⟩ | ⟨hd, act, rest, hi, hst, _⟩ |
      ⟨f, rest, hi, _⟩ | ⟨hi, _⟩ | ⟨rest, hi, hst, _⟩ <;> simp only [OneCall, hi]
  · exact ⟨others hst, key hst⟩
  · exact ⟨others hst, key hst⟩
  · exact key hst

/-- The stack of a thread after a step of its innermost frame. -/
theorem fstep_seen {g g' : G} {t : Tid} {ok : Bool} {f : Frame} {fs : List Frame}
    (h : fstep g t ok f = some (g', fs)) (hf : Seen t g f) :
    (fs = [] ∧ ¬ Pending t g'.tr) ∨ (fs = [.app, .d1] ∧ ¬ Pending t g'.tr) ∨
      ∃ f', fs = [f'] ∧ Seen t g' f' := by
  cases f <;> simp only [fstep, reduceCtorEq] at h
  case' d0 => split at h
  case' d2 => split at h
  case' d3 => split at h
  all_goals (simp only [Option.some.injEq, Prod.mk.injEq] at h; obtain ⟨rfl, rfl⟩ := h)
  case s c act r => cases act <;> exact .inr (.inr ⟨_, rfl, trivial⟩)
  case c0 h act => cases act <;> exact .inr (.inr ⟨_, rfl, trivial⟩)
  case ret | cret | d2.isTrue | d3.isTrue =>
    exact .inl ⟨rfl, by simp [Pending, G.log, lastOwn]⟩
  case d0.isTrue e => exact .inr (.inr ⟨_, rfl, hf, e⟩)
  case d0.isFalse e => exact .inr (.inr ⟨_, rfl, .inl ⟨hf, by omega⟩⟩)
  case d0' => exact .inr (.inl ⟨rfl, by simp [Pending, G.log, lastOwn]⟩)
  case d1 =>
    cases ok
    · exact .inr (.inr ⟨_, rfl, .inr (by simp [G.log, lastOwn])⟩)
    · exact .inl ⟨rfl, by simp [Pending, G.log, lastOwn]⟩
  case d2.isFalse e => exact .inr (.inr ⟨_, rfl, hf, e⟩)
  case d3.isFalse e => exact .inr (.inr ⟨_, rfl, hf.1, hf.2, e⟩)
  case d4 => exact .inr (.inr ⟨_, rfl, hf.1, hf.2.1, hf.2.2, rfl⟩)
  case d5 => exact .inr (.inr ⟨_, rfl, by simp [Seen, Pending, G.log, lastOwn]⟩)
  all_goals exact .inr (.inr ⟨_, rfl, trivial⟩)

/-- A step logs at most one event, of its thread. -/
theorem next_tr {s s' : S} {l : Lbl} (h : next s l = some s') :
    s'.g.tr = s.g.tr ∨ ∃ x : Tid × Ev, s'.g.tr = x :: s.g.tr ∧ x.1 = l.t := by
  obtain ⟨g', st, rfl, hc⟩ := next_cases h
  rcases hc with ⟨ok, f, fs, rest, _, _, hf, _⟩ | ⟨act, o, rest, _, _, rfl, _⟩ |
    ⟨hd, act, rest, _, _, rfl, _⟩ | ⟨f, rest, _, _, rfl, _⟩ | ⟨_, rfl, _⟩ | ⟨rest, _, _, rfl, _⟩
  · rcases (fstep_tr hf).2 with e | ⟨e, e', _⟩
    · exact .inl e
    · exact .inr ⟨_, e', rfl⟩
  · exact .inr ⟨_, rfl, rfl⟩
  · exact .inr ⟨_, rfl, rfl⟩
  · exact .inl rfl
  · exact .inr ⟨_, rfl, rfl⟩
  · exact .inl rfl

theorem solo_step {s s' : S} {l : Lbl} (hn : Numbered s) (hs : Solo s) (hA : Alone s l)
    (h : next s l = some s') : Solo s' := by
  have hidle : ∀ u, u ≠ l.t → idle (s.th u) = true := by
    intro u hu
    by_cases e : s.th u = [.app]
    · rw [e]; rfl
    · obtain ⟨e, he⟩ := hn.hist u e
      exact hA.1 _ he hu
  obtain ⟨g', st, rfl, hc⟩ := next_cases h
  have main : (st = [.app] ∨ ∃ f r, st = f :: r ∧ under r = true) ∧
      (∀ f r, st = f :: r → Seen l.t g' f) := by
    rcases hc with ⟨ok, f, fs, rest, hi, hst, hf, rfl⟩ | ⟨act, o, rest, hi, hst, rfl, rfl⟩ |
      ⟨hd, act, rest, hi, hst, rfl, rfl⟩ | ⟨f, rest, hi, hst, rfl, rfl⟩ | ⟨hi, rfl, rfl⟩ |
      ⟨rest, hi, hst, rfl, rfl⟩
    · have hu : under rest = true := by
        rcases hs.shape l.t with e | ⟨f', r, e, hr⟩
        · rw [e] at hst; cases hst; simp [fstep] at hf
        · rw [hst] at e; cases e; exact hr
      rcases fstep_seen hf (hs.seen _ _ _ hst) with ⟨rfl, hp⟩ | ⟨rfl, hp⟩ | ⟨f', rfl, hse⟩
      · rcases under_cons hu with rfl | ⟨f, r', rfl, h1, h2⟩
        · exact ⟨.inl rfl, by intro f r e; cases e; exact hp⟩
        · refine ⟨.inr ⟨f, r', rfl, h1⟩, ?_⟩
          intro f r e; cases e
          rcases h2 with rfl | rfl
          · exact hp
          · trivial
      · refine ⟨.inr ⟨.app, .d1 :: rest, rfl, ?_⟩, by intro f r e; cases e; exact hp⟩
        cases rest with
        | nil => simp [under] at hu
        | cons x y => simpa [under] using hu
      · exact ⟨.inr ⟨f', rest, rfl, hu⟩, by intro f r e; cases e; exact hse⟩
    · have hu : under (.app :: rest) = true := by
        rcases hs.shape l.t with e | ⟨f', r, e, hr⟩
        · rw [e] at hst; cases hst; rfl
        · rw [hst] at e; cases e
          cases rest with
          | nil => simp [under] at hr
          | cons x y => simpa [under] using hr
      refine ⟨.inr ⟨_, _, rfl, hu⟩, ?_⟩
      intro f r e; cases e
      cases o <;> trivial
    · have hu : under (.app :: rest) = true := by
        rcases hs.shape l.t with e | ⟨f', r, e, hr⟩
        · rw [e] at hst; cases hst; rfl
        · rw [hst] at e; cases e
          cases rest with
          | nil => simp [under] at hr
          | cons x y => simpa [under] using hr
      exact ⟨.inr ⟨_, _, rfl, hu⟩, by intro f r e; cases e; trivial⟩
    · have hu : under (f :: rest) = true := by
        rcases hs.shape l.t with e | ⟨f', r, e, hr⟩
        · rw [e] at hst; simp at hst
        · rw [hst] at e; cases e; exact hr
      have hp : ¬ Pending l.t s.g.tr := hs.seen _ _ _ hst
      rcases under_cons hu with e | ⟨f', r', e, h1, h2⟩
      · rw [e]; exact ⟨.inl rfl, by intro f r e; cases e; exact hp⟩
      · cases e
        refine ⟨.inr ⟨_, _, rfl, h1⟩, ?_⟩
        intro f r e; cases e
        rcases h2 with rfl | rfl
        · exact hp
        · trivial
    · have hu : under (s.th l.t) = true := by
        rcases hs.shape l.t with e | ⟨f', r, e, hr⟩
        · rw [e]; rfl
        · have := hA.2 hi
          rw [e] at this ⊢
          cases f' <;> simp only [idle, reduceCtorEq] at this
          cases r with
          | nil => simp [under] at hr
          | cons x y => simpa [under] using hr
      exact ⟨.inr ⟨_, _, rfl, hu⟩, by intro f r e; cases e; simp [Seen, G.log, lastOwn]⟩
    · exact ⟨.inl rfl, by intro f r e; cases e; exact hs.seen _ _ _ hst⟩
  refine ⟨?_, ?_, ?_⟩
  · intro u
    simp only
    split
    · exact main.1
    · exact hs.shape u
  · intro u v hu hv
    have one : ∀ w, idle (if w = l.t then st else s.th w) = false → w = l.t := by
      intro w hw
      apply Classical.byContradiction
      intro hne
      rw [if_neg hne, hidle w hne] at hw
      cases hw
    rw [one u hu, one v hv]
  · intro u f r e
    simp only at e
    split at e
    · rename_i hu; rw [hu]; exact main.2 f r e
    · rename_i hu
      have := hidle u hu
      rw [e] at this
      cases f <;> simp only [idle, reduceCtorEq] at this
      have old := hs.seen _ _ _ e
      have htr : lastOwn u g'.tr = lastOwn u s.g.tr := by
        rcases next_tr h with e | ⟨x, e, hx⟩
        · simp only at e; rw [e]
        · simp only at e; rw [e, lastOwn, if_neg (by rw [hx]; exact fun e => hu e.symm)]
      simpa [Seen, Pending, htr] using old

/-- An event logged by a step outside of calls, when the variables are as set last. -/
theorem fstep_right {a : Act} {k : Kern} {g g' : G} {t : Tid} {ok : Bool} {f : Frame}
    {fs : List Frame} (h : fstep g t ok f = some (g', fs)) (hf : f.inCall = false)
    (hse : Seen t g f) (hd : Done a k g) (hal : Always (Right a) g.tr) :
    Always (Right a) g'.tr := by
  have hp : PassedG t g → Passed t g.tr := by
    intro h
    rcases h with ⟨h1, h2⟩ | h
    · exact .inl ⟨h1, hd.2.1 ▸ h2⟩
    · exact .inr h
  cases f <;> simp only [Frame.inCall, reduceCtorEq] at hf <;> simp only [fstep, reduceCtorEq] at h
  all_goals (try split at h)
  all_goals (simp only [Option.some.injEq, Prod.mk.injEq] at h; obtain ⟨rfl, rfl⟩ := h)
  case d0' => exact ⟨⟨hse.1, hd.2.1, hse.2⟩, hal⟩
  case d2.isTrue e => exact ⟨⟨hp hse, by have := hd.1 ▸ e; exact this⟩, hal⟩
  case d3.isTrue e => exact ⟨⟨hp hse.1, by have := hd.1 ▸ e; exact this⟩, hal⟩
  case d5 =>
    obtain ⟨h0, h1, h2, h3⟩ := hse
    refine ⟨⟨hp h0, by rw [hd.1], by rw [h3, hd.1], ?_⟩, hal⟩
    omega
  all_goals first
    | exact hal
    | exact ⟨trivial, hal⟩

theorem alone_inv {a : Act} {k : Kern} {s : S} (h : ReachA Alone a k s) :
    ReachA OneCall a k s ∧ Solo s ∧ Always (Right a) s.g.tr := by
  induction h with
  | init =>
    refine ⟨.init, ⟨fun u => .inl rfl, ?_, ?_⟩, trivial⟩
    · intro u v hu; simp [S.first, idle] at hu
    · intro u f r e; cases e; simp [Seen, Pending, S.first, lastOwn]
  | @step s s' l _ hA hs ih =>
    obtain ⟨hr, hso, hal⟩ := ih
    obtain ⟨hn, hone, _⟩ := one_inv hr
    have hr' := ReachA.step hr (alone_one hso hA hs) hs
    refine ⟨hr', solo_step hn hso hA hs, ?_⟩
    have hE := (one_inv hr').2.2
    obtain ⟨g', st, rfl, hc⟩ := next_cases hs
    rcases hc with ⟨ok, f, fs, rest, hi, hst, hf, rfl⟩ | ⟨act, o, rest, hi, hst, rfl, rfl⟩ |
      ⟨hd, act, rest, hi, hst, rfl, rfl⟩ | ⟨f, rest, hi, hst, rfl, rfl⟩ | ⟨hi, rfl, rfl⟩ |
      ⟨rest, hi, hst, rfl, rfl⟩
    · cases hin : f.inCall with
      | false =>
        have hcalls : ∀ u, calls (s.th u) = [] := by
          intro u
          by_cases hu : u = l.t
          · subst hu
            rcases hso.shape l.t with e | ⟨f', r, e, hr⟩
            · rw [e]; rfl
            · rw [hst] at e; cases e
              rw [hst, calls_cons, hin, under_calls hr]; rfl
          · by_cases e : s.th u = [.app]
            · rw [e]; rfl
            · obtain ⟨e, he⟩ := hn.hist u e
              exact idle_calls hso (hA.1 _ he hu)
        have hd : Done a k s.g := by
          rcases hone with ⟨_, h⟩ | ⟨o, f, p, pk, h1, _⟩
          · exact h
          · rw [hcalls o] at h1; simp at h1
        exact fstep_right hf hin (hso.seen _ _ _ hst) hd hal
      | true =>
        rcases (fstep_tr hf).2 with e | ⟨e, he, hcall, hret⟩
        · simp only [e]; exact hal
        · simp only [he] at hE ⊢
          refine ⟨?_, hal⟩
          have h1 := hE.1
          cases e <;> try trivial
          all_goals (cases f <;> simp only [Frame.inCall, reduceCtorEq] at hin <;>
            simp only [fstep, Option.some.injEq, Prod.mk.injEq] at hf <;>
            obtain ⟨rfl, _⟩ := hf <;> simp [G.log] at he)
    · exact ⟨trivial, hal⟩
    · exact ⟨trivial, hal⟩
    · exact hal
    · exact ⟨trivial, hal⟩
    · exact hal

/-! ## All executions -/

def KnownOld (a : Act) (tr : Hist) : Option Act → Prop
  | some r => someAct a tr (fun b => b.h = r.h) ∧
      someAct a tr (fun b => b.flags = r.flags) ∧ someAct a tr (fun b => b.mask = r.mask)
  | none => True

/-- The action of a call in progress. -/
def KnownAct (tr : Hist) : Option Act → Prop
  | some b => ∃ t c o, (t, Ev.call c (some b) o) ∈ tr
  | none => True

def KnownFrame (a : Act) (tr : Hist) : Frame → Prop
  | .o0 _ act => KnownAct tr act
  | .o1 _ act h => KnownAct tr act ∧ someAct a tr (fun b => b.h = h)
  | .o2 _ act h fl => KnownAct tr act ∧ someAct a tr (fun b => b.h = h) ∧
      someAct a tr (fun b => b.flags = fl)
  | .s _ act r => KnownAct tr act ∧ KnownOld a tr r
  | .s0 _ b r | .s1 _ b r | .s2 _ b r | .k0 _ b r | .k1 _ b r =>
      KnownAct tr (some b) ∧ KnownOld a tr r
  | .k2 _ r | .ret _ r => KnownOld a tr r
  | .c0 h _ => ∃ t act, (t, Ev.clientCall h act) ∈ tr
  | .d5 info => someAct a tr (fun b => b.flags.info = info)
  | _ => True

def KnownG (a : Act) (g : G) : Prop :=
  someAct a g.tr (fun b => b.h = g.appl.h) ∧ someAct a g.tr (fun b => b.flags = g.appl.flags) ∧
    someAct a g.tr (fun b => b.mask = g.appl.mask) ∧
    (g.client = 0 ∨ ∃ t act, (t, Ev.clientCall g.client act) ∈ g.tr)

theorem someAct_mono {a : Act} {x : Tid × Ev} {tr : Hist} {p : Act → Prop} (h : someAct a tr p) :
    someAct a (x :: tr) p := by
  rcases h with h | ⟨t, c, b, o, hm, hp⟩
  · exact .inl h
  · exact .inr ⟨t, c, b, o, List.mem_cons_of_mem _ hm, hp⟩

theorem someAct_imp {a : Act} {tr : Hist} {p q : Act → Prop} (h : someAct a tr p)
    (hpq : ∀ b, p b → q b) : someAct a tr q := by
  rcases h with h | ⟨t, c, b, o, hm, hp⟩
  · exact .inl (hpq _ h)
  · exact .inr ⟨t, c, b, o, hm, hpq _ hp⟩

theorem someAct_known {a b : Act} {tr : Hist} {p : Act → Prop} (h : KnownAct tr (some b))
    (hp : p b) : someAct a tr p := by
  obtain ⟨t, c, o, hm⟩ := h
  exact .inr ⟨t, c, b, o, hm, hp⟩

theorem knownAct_mono {x : Tid × Ev} {tr : Hist} {act : Option Act} (h : KnownAct tr act) :
    KnownAct (x :: tr) act := by
  cases act with
  | none => trivial
  | some b => obtain ⟨t, c, o, hm⟩ := h; exact ⟨t, c, o, List.mem_cons_of_mem _ hm⟩

theorem knownOld_mono {a : Act} {x : Tid × Ev} {tr : Hist} {r : Option Act}
    (h : KnownOld a tr r) : KnownOld a (x :: tr) r := by
  cases r with
  | none => trivial
  | some b => exact ⟨someAct_mono h.1, someAct_mono h.2.1, someAct_mono h.2.2⟩

theorem knownFrame_mono {a : Act} {x : Tid × Ev} {tr : Hist} {f : Frame}
    (h : KnownFrame a tr f) : KnownFrame a (x :: tr) f := by
  cases f
  case o0 => exact knownAct_mono h
  case o1 => exact ⟨knownAct_mono h.1, someAct_mono h.2⟩
  case o2 => exact ⟨knownAct_mono h.1, someAct_mono h.2.1, someAct_mono h.2.2⟩
  case s | s0 | s1 | s2 | k0 | k1 => exact ⟨knownAct_mono h.1, knownOld_mono h.2⟩
  case k2 | ret => exact knownOld_mono h
  case c0 =>
    obtain ⟨t, act, hm⟩ := h
    exact ⟨t, act, List.mem_cons_of_mem _ hm⟩
  case d5 info => exact someAct_mono (p := fun b => b.flags.info = info) h
  all_goals trivial

theorem knownG_mono {a : Act} {g : G} {t : Tid} {e : Ev} (h : KnownG a g) :
    KnownG a (g.log t e) := by
  refine ⟨someAct_mono h.1, someAct_mono h.2.1, someAct_mono h.2.2.1, ?_⟩
  rcases h.2.2.2 with h | ⟨t, act, hm⟩
  · exact .inl h
  · exact .inr ⟨t, act, List.mem_cons_of_mem _ hm⟩

theorem fstep_known {a : Act} {g g' : G} {t : Tid} {ok : Bool} {f : Frame}
    {fs : List Frame} (h : fstep g t ok f = some (g', fs)) (hf : KnownFrame a g.tr f)
    (hg : KnownG a g) (hal : Always (Known a) g.tr) :
    KnownG a g' ∧ Always (Known a) g'.tr ∧ ∀ f' ∈ fs, KnownFrame a g'.tr f' := by
  cases f <;> simp only [fstep, reduceCtorEq] at h
  case' d0 => split at h
  case' d2 => split at h
  case' d3 => split at h
  all_goals (simp only [Option.some.injEq, Prod.mk.injEq] at h; obtain ⟨rfl, rfl⟩ := h)
  case o0 => exact ⟨hg, hal, by simpa [KnownFrame] using ⟨hf, hg.1⟩⟩
  case o1 => exact ⟨hg, hal, by simpa [KnownFrame] using ⟨hf.1, hf.2, hg.2.1⟩⟩
  case o2 => exact ⟨hg, hal, by simpa [KnownFrame, KnownOld] using ⟨hf.1, hf.2.1, hf.2.2, hg.2.2.1⟩⟩
  case s c act r =>
    refine ⟨hg, hal, ?_⟩
    cases act with
    | none => simpa [KnownFrame] using hf.2
    | some b => simpa [KnownFrame] using hf
  case s0 => exact ⟨⟨someAct_known hf.1 rfl, hg.2⟩, hal, by simpa [KnownFrame] using hf⟩
  case s1 => exact ⟨⟨hg.1, someAct_known hf.1 rfl, hg.2.2⟩, hal, by simpa [KnownFrame] using hf⟩
  case s2 => exact ⟨⟨hg.1, hg.2.1, someAct_known hf.1 rfl, hg.2.2.2⟩, hal,
      by simpa [KnownFrame] using hf⟩
  case k0 => exact ⟨hg, hal, by simpa [KnownFrame] using hf⟩
  case k1 => exact ⟨hg, hal, by simpa [KnownFrame] using hf.2⟩
  case k2 => exact ⟨hg, hal, by simpa [KnownFrame] using hf⟩
  case ret c r =>
    refine ⟨knownG_mono hg, ⟨?_, hal⟩, by simp⟩
    cases r with
    | none => trivial
    | some r => exact hf
  case c0 h act =>
    refine ⟨⟨hg.1, hg.2.1, hg.2.2.1, .inr hf⟩, hal, ?_⟩
    cases act <;> simp [KnownFrame]
  case c1 | c2 | c3 => exact ⟨hg, hal, by simp [KnownFrame]⟩
  case cret => exact ⟨knownG_mono hg, ⟨trivial, hal⟩, by simp⟩
  case d0.isTrue | d0.isFalse => exact ⟨hg, hal, by simp [KnownFrame]⟩
  case d0' => exact ⟨knownG_mono hg, ⟨hg.2.2.2, hal⟩, by simp [KnownFrame]⟩
  case d1 => exact ⟨knownG_mono hg, ⟨trivial, hal⟩, by split <;> simp [KnownFrame]⟩
  case d2.isTrue e => exact ⟨knownG_mono hg, ⟨by have := hg.1; rw [e] at this; exact this, hal⟩,
      by simp⟩
  case d3.isTrue e => exact ⟨knownG_mono hg, ⟨by have := hg.1; rw [e] at this; exact this, hal⟩,
      by simp⟩
  case d2.isFalse | d3.isFalse => exact ⟨hg, hal, by simp [KnownFrame]⟩
  case d4 =>
    exact ⟨hg, hal, by simpa [KnownFrame] using someAct_imp hg.2.1 (fun b e => by rw [e])⟩
  case d5 => exact ⟨knownG_mono hg, ⟨⟨hg.1, hf⟩, hal⟩, by simp [KnownFrame]⟩

theorem known_inv {A : S → Lbl → Prop} {a : Act} {k : Kern} {s : S} (h : ReachA A a k s) :
    KnownG a s.g ∧ Always (Known a) s.g.tr ∧ ∀ u, ∀ f ∈ s.th u, KnownFrame a s.g.tr f := by
  induction h with
  | init =>
    refine ⟨⟨.inl rfl, .inl rfl, .inl rfl, .inl rfl⟩, trivial, ?_⟩
    intro u f hf
    simp only [S.first, List.mem_singleton] at hf
    subst hf; trivial
  | @step s s' l _ _ hs ih =>
    obtain ⟨hg, hal, hfr⟩ := ih
    obtain ⟨g', st, rfl, hc⟩ := next_cases hs
    have fin : KnownG a g' → Always (Known a) g'.tr → (∀ f ∈ st, KnownFrame a g'.tr f) →
        (g'.tr = s.g.tr ∨ ∃ x, g'.tr = x :: s.g.tr) →
        KnownG a g' ∧ Always (Known a) g'.tr ∧
          ∀ u, ∀ f ∈ (if u = l.t then st else s.th u), KnownFrame a g'.tr f := by
      intro h1 h2 h3 h4
      refine ⟨h1, h2, ?_⟩
      intro u f hf
      split at hf
      · exact h3 f hf
      · rcases h4 with e | ⟨x, e⟩
        · rw [e]; exact hfr u f hf
        · rw [e]; exact knownFrame_mono (hfr u f hf)
    rcases hc with ⟨ok, f, fs, rest, hi, hst, hf, rfl⟩ | ⟨act, o, rest, hi, hst, rfl, rfl⟩ |
      ⟨hd, act, rest, hi, hst, rfl, rfl⟩ | ⟨f, rest, hi, hst, rfl, rfl⟩ | ⟨hi, rfl, rfl⟩ |
      ⟨rest, hi, hst, rfl, rfl⟩
    · have hmem : ∀ x ∈ f :: rest, KnownFrame a s.g.tr x := by rw [← hst]; exact hfr l.t
      obtain ⟨h1, h2, h3⟩ := fstep_known hf (hmem f List.mem_cons_self) hg hal
      have htr : g'.tr = s.g.tr ∨ ∃ x, g'.tr = x :: s.g.tr := by
        rcases (fstep_tr hf).2 with e | ⟨e, e', _⟩
        · exact .inl e
        · exact .inr ⟨_, e'⟩
      refine fin h1 h2 ?_ htr
      intro x hx
      rcases List.mem_append.1 hx with hx | hx
      · exact h3 x hx
      · have := hmem x (List.mem_cons_of_mem _ hx)
        rcases htr with e | ⟨y, e⟩
        · rw [e]; exact this
        · rw [e]; exact knownFrame_mono this
    · have hact : KnownAct ((l.t, Ev.call s.g.ncall act o) :: s.g.tr) act := by
        cases act with
        | none => trivial
        | some b => exact ⟨_, _, _, List.mem_cons_self⟩
      refine fin (knownG_mono (g := { s.g with ncall := s.g.ncall + 1 }) hg) ⟨trivial, hal⟩ ?_
        (.inr ⟨_, rfl⟩)
      intro x hx
      rcases List.mem_cons.1 hx with rfl | hx
      · cases o
        · exact ⟨hact, trivial⟩
        · exact hact
      · exact knownFrame_mono (hfr l.t x (by rw [hst]; exact hx))
    · refine fin (knownG_mono hg) ⟨trivial, hal⟩ ?_ (.inr ⟨_, rfl⟩)
      intro x hx
      rcases List.mem_cons.1 hx with rfl | hx
      · exact ⟨_, _, List.mem_cons_self⟩
      · exact knownFrame_mono (hfr l.t x (by rw [hst]; exact hx))
    · exact fin hg hal (fun x hx => hfr l.t x (by rw [hst]; exact List.mem_cons_of_mem _ hx))
        (.inl rfl)
    · refine fin (knownG_mono hg) ⟨trivial, hal⟩ ?_ (.inr ⟨_, rfl⟩)
      intro x hx
      rcases List.mem_cons.1 hx with rfl | hx
      · trivial
      · exact knownFrame_mono (hfr l.t x hx)
    · refine fin hg hal ?_ (.inl rfl)
      intro x hx
      simp only [List.mem_singleton] at hx
      subst hx; trivial

end Libmonitor.SigC
