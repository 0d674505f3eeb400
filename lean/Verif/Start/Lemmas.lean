import Verif.Start.Spec

/-! # Invariants for the claim on program start -/

namespace Libmonitor.Start

/-- What a step does. -/
theorem next_cases {b : Build} {s s' : S} {l : Lbl} (h : next b s l = some s') :
    ∃ f rest, s.th l.t = f :: rest ∧
      ((∃ v, l.i = .go v ∧ s' = { g := (fstep b s.g l.t v f).1, th := fun u =>
          if u = l.t then (fstep b s.g l.t v f).2 ++ rest else s.th u }) ∨
       (∃ p, l.i = .start p ∧ f.foreign = true ∧ fits b p = true ∧
          s' = { g := s.g.log l.t (.start p),
                 th := fun u => if u = l.t then .s0 p :: f :: rest else s.th u }) ∨
       (∃ k, (k = .n0 ∨ k = .q ∨ k = .app) ∧
          s' = { g := s.g, th := fun u => if u = l.t then k :: f :: rest else s.th u }) ∨
       (l.i = .fork ∧
          s' = { g := s.g.log l.t .forked,
                 th := fun u => if u = l.t then f :: rest else [] })) := by
  obtain ⟨t, i⟩ := l
  simp only [next] at h
  split at h
  · cases h
  · rename_i f rest hst
    refine ⟨f, rest, hst, ?_⟩
    split at h
    · simp only [Option.some.injEq] at h
      exact .inl ⟨_, rfl, h.symm⟩
    · split at h
      · rename_i hc
        simp only [Option.some.injEq] at h
        simp only [Bool.and_eq_true] at hc
        exact .inr (.inl ⟨_, rfl, hc.1, hc.2, h.symm⟩)
      · cases h
    · split at h
      · simp only [Option.some.injEq] at h
        exact .inr (.inr (.inl ⟨.n0, .inl rfl, h.symm⟩))
      · cases h
    · split at h
      · simp only [Option.some.injEq] at h
        exact .inr (.inr (.inl ⟨.q, .inr (.inl rfl), h.symm⟩))
      · cases h
    · simp only [Option.some.injEq] at h
      exact .inr (.inr (.inl ⟨.app, .inr (.inr rfl), h.symm⟩))
    · split at h
      · simp only [Option.some.injEq] at h
        exact .inr (.inr (.inr ⟨rfl, h.symm⟩))
      · cases h

/-- A step by frame logs at most one event. -/
theorem fstep_tr (b : Build) (g : G) (t : Tid) (v : List Nat) (f : Frame) :
    (fstep b g t v f).1.tr = g.tr ∨ ∃ e, (fstep b g t v f).1.tr = (t, e) :: g.tr := by
  cases f <;> simp only [fstep, G.log] <;> (repeat' split) <;> simp

/-! ## Counting -/

def weight (w : Frame → Nat) (l : List Frame) : Nat := (l.map w).sum

@[simp] theorem weight_nil (w : Frame → Nat) : weight w [] = 0 := rfl
@[simp] theorem weight_cons (w : Frame → Nat) (f : Frame) (l : List Frame) :
    weight w (f :: l) = w f + weight w l := by simp [weight]
@[simp] theorem weight_append (w : Frame → Nat) (k l : List Frame) :
    weight w (k ++ l) = weight w k + weight w l := by simp [weight]

@[simp] theorem times_nil (p : Ev → Bool) (t : Tid) : times p t [] = 0 := rfl

theorem times_cons (p : Ev → Bool) (t u : Tid) (e : Ev) (tr : Hist) :
    times p t ((u, e) :: tr) = times p t tr + (if u = t ∧ p e = true then 1 else 0) := by
  unfold times
  rw [List.countP_cons]
  simp

/-- What thread `t` has done of `p`, and has still to do, does not exceed what it has done of `q`
(and what was there to start with). -/
theorem pot_inv {A : S → Lbl → Prop} {b : Build} (w : Frame → Nat) (p q : Ev → Bool) (B : Tid → Nat)
    (h0 : ∀ t, weight w ((S.first b).th t) ≤ B t)
    (hstep : ∀ g t v f, times p t (fstep b g t v f).1.tr + weight w (fstep b g t v f).2 + times q t g.tr ≤
      times p t g.tr + w f + times q t (fstep b g t v f).1.tr)
    (hstart : b ≠ .static → ∀ r, w (.s0 r) + (p (.start r)).toNat ≤ (q (.start r)).toNat)
    (hn : w .n0 = 0) (hq : w .q = 0) (ha : w .app = 0) (hf : p .forked = false)
    {s : S} (h : ReachA A b s) : ∀ t, times p t s.g.tr + weight w (s.th t) ≤ times q t s.g.tr + B t := by
  induction h with
  | init => intro t; have := h0 t; simp only [S.first, times_nil] at this ⊢; omega
  | @step s s' l hr hA hn' ih =>
    obtain ⟨f, rest, hst, hc⟩ := next_cases hn'
    have ih0 := ih l.t
    rw [hst, weight_cons] at ih0
    rcases hc with ⟨v, -, rfl⟩ | ⟨r, -, -, hfit, rfl⟩ | ⟨k, hk, rfl⟩ | ⟨-, rfl⟩
    · intro t
      by_cases ht : t = l.t
      · subst ht
        have := hstep s.g l.t v f
        simp only [if_true, weight_append]
        omega
      · simp only [if_neg ht]
        have := ih t
        rcases fstep_tr b s.g l.t v f with he | ⟨e, he⟩
        · rw [he]; exact this
        · rw [he, times_cons, times_cons, if_neg (fun hx => ht hx.1.symm), if_neg (fun hx => ht hx.1.symm)]
          exact this
    · intro t
      have hb : b ≠ .static := by rintro rfl; simp [fits] at hfit
      simp only [G.log]
      rw [times_cons, times_cons]
      by_cases ht : t = l.t
      · subst ht
        have := hstart hb r
        simp only [if_true, weight_cons, true_and]
        revert this
        cases p (.start r) <;> cases q (.start r) <;> simp <;> omega
      · simp only [if_neg ht, if_neg (fun hx : l.t = t ∧ _ => ht hx.1.symm)]
        exact ih t
    · intro t
      have hk0 : w k = 0 := by rcases hk with rfl | rfl | rfl <;> assumption
      by_cases ht : t = l.t
      · subst ht
        simp only [if_true, weight_cons, hk0]
        omega
      · simp only [if_neg ht]; exact ih t
    · intro t
      simp only [G.log]
      rw [times_cons, times_cons]
      simp only [hf, Bool.false_eq_true, and_false, if_false]
      by_cases ht : t = l.t
      · subst ht
        simp only [if_true, weight_cons]
        omega
      · simp only [if_neg ht, weight_nil]
        have := ih t
        omega

/-- Threads that have a frame of weight 1 on top have one left to do. -/
theorem pot_top {w : Frame → Nat} {s : S} {t : Tid} {f : Frame} {rest : List Frame}
    (hst : s.th t = f :: rest) : w f ≤ weight w (s.th t) := by
  rw [hst, weight_cons]; omega

def wInit : Frame → Nat
  | .s0 _ | .c0 _ | .c1 _ | .s1 _ | .boot | .w0 _ | .w1 _ | .w2 _ => 1
  | _ => 0

def wReal : Frame → Nat
  | .s2 _ => 1
  | _ => 0

def wMain : Frame → Nat
  | .w0 _ | .w1 _ | .w2 _ | .m0 _ | .m1 _ => 1
  | _ => 0

def wLibc : Frame → Nat
  | .libc _ | .boot => 1
  | _ => 0

def wAll : Frame → Nat
  | .s0 _ | .c0 _ | .c1 _ | .s1 _ | .s2 _ | .libc _ | .boot => 1
  | _ => 0

macro "pot_step" : tactic => `(tactic| (
  intro g t v f
  cases f <;> simp only [fstep, G.log] <;> (repeat' split) <;>
    simp [times_cons, wInit, wReal, wMain, wLibc, wAll, isInit, isStart, isReal, isLibcMain, isMain] <;> omega))

theorem pot_init {A : S → Lbl → Prop} {b : Build} (hb : b ≠ .static) {s : S} (h : ReachA A b s) (t : Tid) :
    times isInit t s.g.tr + weight wInit (s.th t) ≤ times isStart t s.g.tr :=
  pot_inv wInit isInit isStart (fun _ => 0) (by intro t; simp [S.first, hb, wInit])
    (by pot_step) (by intro _ r; simp [wInit, isInit, isStart]) rfl rfl rfl rfl h t

theorem pot_init_static {A : S → Lbl → Prop} {s : S} (h : ReachA A .static s) (t : Tid) :
    times isInit t s.g.tr + weight wInit (s.th t) ≤ if t = 0 then 1 else 0 := by
  have := pot_inv (b := .static) wInit isInit (fun _ => false) (fun t => if t = 0 then 1 else 0)
    (by intro t; by_cases ht : t = 0 <;> simp [S.first, ht, wInit])
    (by pot_step) (by intro hb; exact absurd rfl hb) rfl rfl rfl rfl h t
  have hz : times (fun _ => false) t s.g.tr = 0 := by simp [times]
  omega

theorem pot_real {A : S → Lbl → Prop} {b : Build} {s : S} (h : ReachA A b s) (t : Tid) :
    times isReal t s.g.tr + weight wReal (s.th t) ≤ times isInit t s.g.tr :=
  pot_inv wReal isReal isInit (fun _ => 0) (by intro t; by_cases ht : t = 0 ∧ b = .static <;> simp [S.first, ht, wReal])
    (by pot_step) (by intro _ r; simp [wReal, isReal]) rfl rfl rfl rfl h t

theorem pot_main {A : S → Lbl → Prop} {b : Build} {s : S} (h : ReachA A b s) (t : Tid) :
    times isMain t s.g.tr + weight wMain (s.th t) ≤ times isLibcMain t s.g.tr :=
  pot_inv wMain isMain isLibcMain (fun _ => 0)
    (by intro t; by_cases ht : t = 0 ∧ b = .static <;> simp [S.first, ht, wMain])
    (by pot_step) (by intro _ r; simp [wMain, isMain]) rfl rfl rfl rfl h t

theorem pot_libc {A : S → Lbl → Prop} {b : Build} (hb : b ≠ .static) {s : S} (h : ReachA A b s) (t : Tid) :
    times isLibcMain t s.g.tr + weight wLibc (s.th t) ≤ times isReal t s.g.tr :=
  pot_inv wLibc isLibcMain isReal (fun _ => 0) (by intro t; simp [S.first, hb, wLibc])
    (by pot_step) (by intro _ r; simp [wLibc, isLibcMain]) rfl rfl rfl rfl h t

theorem pot_libc_static {A : S → Lbl → Prop} {s : S} (h : ReachA A .static s) (t : Tid) :
    times isLibcMain t s.g.tr + weight wAll (s.th t) ≤ if t = 0 then 1 else 0 := by
  have := pot_inv (b := .static) wAll isLibcMain (fun _ => false) (fun t => if t = 0 then 1 else 0)
    (by intro t; by_cases ht : t = 0 <;> simp [S.first, ht, wAll])
    (by pot_step) (by intro hb; exact absurd rfl hb) rfl rfl rfl rfl h t
  have hz : times (fun _ => false) t s.g.tr = 0 := by simp [times]
  omega

/-- Calls of __libc_start_main that have not come to main. -/
theorem pot_all {A : S → Lbl → Prop} {b : Build} (hb : b ≠ .static) {s : S} (h : ReachA A b s) (t : Tid) :
    weight wAll (s.th t) ≤ times isStart t s.g.tr := by
  have := pot_inv wAll (fun _ => false) isStart (fun _ => 0) (by intro t; simp [S.first, hb, wAll])
    (by pot_step) (by intro _ r; simp [wAll, isStart]) rfl rfl rfl rfl h t
  omega

/-! ## Frames -/

def Good (b : Build) (g : G) : Prop := SomeMain b g.realMain g.tr

/-- What the call knows. -/
def Called (b : Build) (g : G) (t : Tid) (p : Par) : Prop :=
  (t, Ev.start p) ∈ g.tr ∧ fits b p = true ∧ p.whole = true

def FOk (b : Build) (g : G) (t : Tid) : Frame → Prop
  | .s0 p => Called b g t p
  | .c0 p | .c1 p | .s1 p => Called b g t p ∧ Good b g
  | .s2 p => Called b g t p ∧ Good b g ∧ (t, Ev.startInit) ∈ g.tr
  | .libc r => (∃ p, Called b g t p ∧ PassedOn p r) ∧ Good b g ∧ (t, Ev.startInit) ∈ g.tr
  | .boot => t = 0 ∧ b = .static
  | .w0 a | .w1 a => t = 0 ∧ b = .static ∧ (t, Ev.libcMain a) ∈ g.tr
  | .w2 a => t = 0 ∧ b = .static ∧ (t, Ev.libcMain a) ∈ g.tr ∧ Good b g
  | .m0 a | .m1 a => (t, Ev.libcMain a) ∈ g.tr ∧ (t, Ev.startInit) ∈ g.tr ∧ Good b g
  | _ => True

theorem SomeMain.mono {b : Build} {a : Addr} {tr tr' : Hist} (h : SomeMain b a tr)
    (hs : ∀ x ∈ tr, x ∈ tr') : SomeMain b a tr' := by
  unfold SomeMain at h ⊢
  split at h
  · rename_i hb; rw [if_pos hb]; exact h
  · rename_i hb; rw [if_neg hb]
    obtain ⟨u, p, hm, hg⟩ := h
    exact ⟨u, p, hs _ hm, hg⟩

theorem FOk.mono {b : Build} {g g' : G} {t : Tid} {f : Frame} (h : FOk b g t f)
    (hs : ∀ x ∈ g.tr, x ∈ g'.tr) (hg : Good b g → Good b g') : FOk b g' t f := by
  have hc : ∀ p, Called b g t p → Called b g' t p := fun p hp => ⟨hs _ hp.1, hp.2⟩
  cases f with
  | s0 p => exact hc p h
  | c0 p => exact ⟨hc p h.1, hg h.2⟩
  | c1 p => exact ⟨hc p h.1, hg h.2⟩
  | s1 p => exact ⟨hc p h.1, hg h.2⟩
  | s2 p => exact ⟨hc p h.1, hg h.2.1, hs _ h.2.2⟩
  | libc r => obtain ⟨⟨p, hp, hr⟩, h2, h3⟩ := h; exact ⟨⟨p, hc p hp, hr⟩, hg h2, hs _ h3⟩
  | boot => exact h
  | w0 a => exact ⟨h.1, h.2.1, hs _ h.2.2⟩
  | w1 a => exact ⟨h.1, h.2.1, hs _ h.2.2⟩
  | w2 a => exact ⟨h.1, h.2.1, hs _ h.2.2.1, hg h.2.2.2⟩
  | m0 a => exact ⟨hs _ h.1, hs _ h.2.1, hg h.2.2⟩
  | m1 a => exact ⟨hs _ h.1, hs _ h.2.1, hg h.2.2⟩
  | _ => trivial

theorem given_main {b : Build} {p : Par} (hf : fits b p = true) (hw : p.whole = true) :
    b ≠ .static ∧ Given p p.main := by
  cases p with
  | x86 m a b c d e f => refine ⟨?_, .x86⟩; rintro rfl; simp [fits] at hf
  | ppc a b c d e p f w =>
    refine ⟨by rintro rfl; simp [fits] at hf, ?_⟩
    match w, hw with
    | w0 :: m :: ws, _ => exact .ppc
    | [], hw => simp [Par.whole] at hw
    | [_], hw => simp [Par.whole] at hw

theorem passedOn_passOn (w : List Nat) (p : Par) : PassedOn p (p.passOn w) := by
  cases p <;> constructor

structure Glob (b : Build) (g : G) : Prop where
  null : g.realMain = 0 ∨ Good b g
  after : (∃ u, (u, Ev.startInit) ∈ g.tr) → Good b g
  ub : g.ub = false

/-- What a step by frame leaves. -/
theorem step_good {b : Build} {g : G} {t : Tid} {v : List Nat} {f : Frame} (hf : FOk b g t f)
    (hg : Good b g) : Good b (fstep b g t v f).1 := by
  have hm : ∀ x ∈ g.tr, x ∈ (fstep b g t v f).1.tr := by
    intro x hx
    rcases fstep_tr b g t v f with he | ⟨e, he⟩ <;> rw [he]
    · exact hx
    · exact List.mem_cons_of_mem _ hx
  by_cases hr : (fstep b g t v f).1.realMain = g.realMain
  · unfold Good; rw [hr]; exact SomeMain.mono hg hm
  · cases f with
    | s0 p =>
      obtain ⟨h1, h2, h3⟩ := hf
      obtain ⟨hb, hgv⟩ := given_main h2 h3
      simp only [fstep, Good, SomeMain, if_neg hb]
      exact ⟨t, p, h1, hgv⟩
    | w1 a =>
      simp only [fstep, Good, SomeMain, if_pos hf.2.1]
    | n1 =>
      simp only [fstep] at hr ⊢
      split
      · rename_i hb; simp only [Good, SomeMain, if_pos hb]
      · exact hg
    | c0 p => exfalso; revert hr; simp only [fstep]; split <;> simp
    | libc p => exfalso; revert hr; simp only [fstep]; split <;> simp [G.log]
    | n0 => exfalso; revert hr; simp only [fstep]; split <;> simp
    | _ => simp [fstep, G.log] at hr

theorem step_frames {b : Build} {g : G} {t : Tid} {v : List Nat} {f : Frame} (hf : FOk b g t f) :
    ∀ k ∈ (fstep b g t v f).2, FOk b (fstep b g t v f).1 t k := by
  cases f with
  | s0 p =>
    obtain ⟨h1, h2, h3⟩ := hf
    obtain ⟨hb, hgv⟩ := given_main h2 h3
    have hgd : Good b { g with realMain := p.main, ub := g.ub || p.short 2 } := by
      simp only [Good, SomeMain, if_neg hb]; exact ⟨t, p, h1, hgv⟩
    intro k hk
    cases p <;> simp only [fstep, List.mem_singleton] at hk ⊢ <;> subst hk <;> exact ⟨⟨h1, h2, h3⟩, hgd⟩
  | c0 p =>
    intro k hk
    cases p <;> simp only [fstep, List.mem_singleton] at hk ⊢ <;> subst hk <;> exact hf
  | c1 p =>
    intro k hk; simp only [fstep, List.mem_singleton] at hk ⊢; subst hk; exact hf
  | s1 p =>
    intro k hk
    simp only [fstep, List.mem_cons, List.not_mem_nil, or_false] at hk ⊢
    rcases hk with rfl | rfl
    · trivial
    · exact ⟨⟨List.mem_cons_of_mem _ hf.1.1, hf.1.2⟩, SomeMain.mono hf.2 (fun x hx => List.mem_cons_of_mem _ hx),
        List.mem_cons_self⟩
  | s2 p =>
    intro k hk
    simp only [fstep, List.mem_singleton] at hk ⊢
    subst hk
    exact ⟨⟨p, ⟨List.mem_cons_of_mem _ hf.1.1, hf.1.2⟩, passedOn_passOn _ p⟩,
      SomeMain.mono hf.2.1 (fun x hx => List.mem_cons_of_mem _ hx), List.mem_cons_of_mem _ hf.2.2⟩
  | libc r =>
    intro k hk
    simp only [fstep] at hk ⊢
    split at hk
    · rename_i hc
      rw [if_pos hc]
      simp only [List.mem_singleton] at hk
      subst hk
      exact ⟨List.mem_cons_self, List.mem_cons_of_mem _ hf.2.2, SomeMain.mono hf.2.1 (fun x hx => List.mem_cons_of_mem _ hx)⟩
    · simp only [List.mem_singleton] at hk; subst hk; trivial
  | boot =>
    intro k hk
    simp only [fstep, List.mem_singleton] at hk ⊢
    subst hk
    exact ⟨hf.1, hf.2, List.mem_cons_self⟩
  | w0 a =>
    intro k hk
    simp only [fstep, List.mem_cons, List.not_mem_nil, or_false] at hk ⊢
    rcases hk with rfl | rfl
    · trivial
    · exact hf
  | w1 a =>
    intro k hk
    simp only [fstep, List.mem_singleton] at hk ⊢
    subst hk
    exact ⟨hf.1, hf.2.1, hf.2.2, by simp [Good, SomeMain, hf.2.1]⟩
  | w2 a =>
    intro k hk
    simp only [fstep, List.mem_cons, List.not_mem_nil, or_false] at hk ⊢
    rcases hk with rfl | rfl
    · trivial
    · exact ⟨List.mem_cons_of_mem _ hf.2.2.1, List.mem_cons_self,
        SomeMain.mono hf.2.2.2 (fun x hx => List.mem_cons_of_mem _ hx)⟩
  | m0 a =>
    intro k hk
    simp only [fstep, List.mem_cons, List.not_mem_nil, or_false] at hk ⊢
    rcases hk with rfl | rfl
    · trivial
    · exact hf
  | m1 a => intro k hk; simp only [fstep, List.mem_singleton] at hk; subst hk; trivial
  | n0 =>
    intro k hk
    simp only [fstep] at hk
    split at hk
    · cases hk
    · simp only [List.mem_singleton] at hk; subst hk; trivial
  | _ => intro k hk; simp [fstep] at hk

theorem mem_times {p : Ev → Bool} {t : Tid} {tr : Hist} : 0 < times p t tr ↔ ∃ e, (t, e) ∈ tr ∧ p e = true := by
  unfold times
  rw [List.countP_pos_iff]
  constructor
  · rintro ⟨⟨u, e⟩, hm, hp⟩
    simp only [Bool.and_eq_true, beq_iff_eq] at hp
    exact ⟨e, hp.1 ▸ hm, hp.2⟩
  · rintro ⟨e, hm, hp⟩
    exact ⟨(t, e), hm, by simp [hp]⟩

structure Inv (b : Build) (s : S) : Prop where
  frames : ∀ t f, f ∈ s.th t → FOk b s.g t f
  glob : Glob b s.g
  hist : Always (Sound b) s.g.tr

/-- The event of a step is sound. -/
theorem step_sound {A : S → Lbl → Prop} {b : Build} {s : S} (hr : ReachA A b s) (hi : Inv b s) {t : Tid}
    {f : Frame} {rest : List Frame} (hst : s.th t = f :: rest) {v : List Nat} :
    Always (Sound b) (fstep b s.g t v f).1.tr := by
  have hf := hi.frames t f (by rw [hst]; exact List.mem_cons_self)
  cases f with
  | s1 p =>
    obtain ⟨hb, -⟩ := given_main hf.1.2.1 hf.1.2.2
    refine ⟨⟨fun _ => ?_, fun h => absurd h hb⟩, hi.hist⟩
    have h1 := pot_init hb hr t
    have h2 := pot_top (w := wInit) hst
    simp only [wInit] at h2
    show times isInit t s.g.tr < times isStart t s.g.tr
    omega
  | w2 a =>
    obtain ⟨h0, hb, -⟩ := hf
    refine ⟨⟨fun h => absurd hb h, fun _ => ⟨h0, ?_⟩⟩, hi.hist⟩
    subst hb
    have h1 := pot_init_static hr t
    have h2 := pot_top (w := wInit) hst
    simp only [wInit] at h2
    rw [if_pos h0] at h1
    show times isInit t s.g.tr = 0
    omega
  | s2 p =>
    refine ⟨⟨⟨p, hf.1.1, passedOn_passOn _ p⟩, ?_⟩, hi.hist⟩
    have h1 := pot_real hr t
    have h2 := pot_top (w := wReal) hst
    simp only [wReal] at h2
    show times isReal t s.g.tr < times isInit t s.g.tr
    omega
  | m1 a =>
    refine ⟨⟨hf.2.2, hf.1, ?_, hf.2.1⟩, hi.hist⟩
    have h1 := pot_main hr t
    have h2 := pot_top (w := wMain) hst
    simp only [wMain] at h2
    show times isMain t s.g.tr < times isLibcMain t s.g.tr
    omega
  | libc r =>
    obtain ⟨⟨p, hp, hpr⟩, -⟩ := hf
    obtain ⟨hb, -⟩ := given_main hp.2.1 hp.2.2
    simp only [fstep]
    split
    · refine ⟨⟨fun _ => ?_, fun h => absurd h hb⟩, hi.hist⟩
      have h1 := pot_libc hb hr t
      have h2 := pot_top (w := wLibc) hst
      simp only [wLibc] at h2
      show times isLibcMain t s.g.tr < times isReal t s.g.tr
      omega
    · rename_i hc
      refine ⟨?_, hi.hist⟩
      show b = .ppc
      cases hpr with
      | x86 => exact absurd rfl hc
      | ppc => revert hp; cases b <;> simp [Called, fits]
  | boot =>
    obtain ⟨h0, hb⟩ := hf
    refine ⟨⟨fun h => absurd hb h, fun _ => ⟨h0, ?_⟩⟩, hi.hist⟩
    subst hb
    have h1 := pot_libc_static hr t
    have h2 := pot_top (w := wAll) hst
    simp only [wAll] at h2
    rw [if_pos h0] at h1
    show times isLibcMain t s.g.tr = 0
    omega
  | q => exact ⟨⟨hi.glob.null, hi.glob.after⟩, hi.hist⟩
  | n1 => simp only [fstep]; split <;> exact hi.hist
  | c0 p => simp only [fstep]; split <;> exact hi.hist
  | n0 => simp only [fstep]; split <;> exact hi.hist
  | _ => exact hi.hist

theorem step_glob {b : Build} {g : G} {t : Tid} {v : List Nat} {f : Frame} (hf : FOk b g t f)
    (hg : Glob b g) : Glob b (fstep b g t v f).1 := by
  have key : g.realMain = (fstep b g t v f).1.realMain ∨ Good b (fstep b g t v f).1 := by
    cases f with
    | s0 p =>
      obtain ⟨hb, hgv⟩ := given_main hf.2.1 hf.2.2
      exact .inr (by simp only [fstep, Good, SomeMain, if_neg hb]; exact ⟨t, p, hf.1, hgv⟩)
    | w1 a => exact .inr (by simp only [fstep, Good, SomeMain, if_pos hf.2.1])
    | n1 =>
      simp only [fstep]
      split
      · rename_i hb; exact .inr (by simp only [Good, SomeMain, if_pos hb])
      · exact .inl rfl
    | c0 p => simp only [fstep]; split <;> exact .inl rfl
    | libc p => simp only [fstep]; split <;> exact .inl rfl
    | n0 => simp only [fstep]; split <;> exact .inl rfl
    | _ => exact .inl rfl
  constructor
  · rcases hg.null with h | h
    · rcases key with hk | hk
      · exact .inl (hk ▸ h)
      · exact .inr hk
    · exact .inr (step_good hf h)
  · rintro ⟨u, hu⟩
    by_cases hold : ∃ u, (u, Ev.startInit) ∈ g.tr
    · exact step_good hf (hg.after hold)
    · have hnew : (u, Ev.startInit) ∉ g.tr := fun h => hold ⟨u, h⟩
      cases f with
      | s1 p => exact step_good hf hf.2
      | w2 a => exact step_good hf hf.2.2.2
      | c0 p => exfalso; revert hu; simp only [fstep]; split <;> exact hnew
      | libc p => exfalso; revert hu; simp only [fstep]; split <;> simp [G.log, hnew]
      | n0 => exfalso; revert hu; simp only [fstep]; split <;> exact hnew
      | n1 => exfalso; revert hu; simp only [fstep]; split <;> exact hnew
      | _ => simp [fstep, G.log, hnew] at hu
  · cases f with
    | s0 p =>
      have hw := hf.2.2
      cases p <;> simp [fstep, hg.ub, Par.short, Par.whole] at hw ⊢
      omega
    | c0 p =>
      have hw := hf.1.2.2
      cases p <;> simp [fstep, hg.ub, Par.short, Par.whole] at hw ⊢
      omega
    | n1 => simp only [fstep]; split <;> exact hg.ub
    | n0 => simp only [fstep]; split <;> exact hg.ub
    | libc p => simp only [fstep]; split <;> exact hg.ub
    | _ => exact hg.ub

theorem sound_inv {A : S → Lbl → Prop} (hA : ∀ s l, A s l → Whole s l) {b : Build} {s : S}
    (h : ReachA A b s) : Inv b s := by
  induction h with
  | init =>
    refine ⟨?_, ⟨.inl rfl, ?_, rfl⟩, trivial⟩
    · intro t f hf
      simp only [S.first] at hf
      split at hf
      · rename_i hc
        simp only [List.mem_singleton] at hf; subst hf; exact hc
      · simp only [List.mem_singleton] at hf; subst hf; trivial
    · rintro ⟨u, hu⟩; cases hu
  | @step s s' l hr hl hn ih =>
    obtain ⟨f, rest, hst, hc⟩ := next_cases hn
    have hf : FOk b s.g l.t f := ih.frames l.t f (by rw [hst]; exact List.mem_cons_self)
    have hrest : ∀ k ∈ rest, FOk b s.g l.t k := fun k hk => ih.frames l.t k (by rw [hst]; exact List.mem_cons_of_mem _ hk)
    rcases hc with ⟨v, -, rfl⟩ | ⟨p, hli, -, hfit, rfl⟩ | ⟨k, hk, rfl⟩ | ⟨-, rfl⟩
    · have hm : ∀ x ∈ s.g.tr, x ∈ (fstep b s.g l.t v f).1.tr := by
        intro x hx
        rcases fstep_tr b s.g l.t v f with he | ⟨e, he⟩ <;> rw [he]
        · exact hx
        · exact List.mem_cons_of_mem _ hx
      refine ⟨?_, step_glob hf ih.glob, step_sound hr ih hst⟩
      intro u k hk
      simp only at hk
      split at hk
      · rename_i hu
        subst hu
        rcases List.mem_append.1 hk with h | h
        · exact step_frames hf k h
        · exact (hrest k h).mono hm (step_good hf)
      · exact (ih.frames u k hk).mono hm (step_good hf)
    · have hm : ∀ x ∈ s.g.tr, x ∈ (s.g.log l.t (.start p)).tr := fun x hx => List.mem_cons_of_mem _ hx
      have hg : Good b s.g → Good b (s.g.log l.t (.start p)) := fun h => SomeMain.mono h hm
      refine ⟨?_, ⟨?_, ?_, ih.glob.ub⟩, ⟨trivial, ih.hist⟩⟩
      · intro u k hk
        simp only at hk
        split at hk
        · rename_i hu
          subst hu
          rcases List.mem_cons.1 hk with h | h
          · subst h
            have hw := hA s l hl
            simp only [Whole, hli] at hw
            exact ⟨List.mem_cons_self, hfit, hw⟩
          · exact (ih.frames l.t k (by rw [hst]; exact h)).mono hm hg
        · exact (ih.frames u k hk).mono hm hg
      · exact ih.glob.null.imp id hg
      · rintro ⟨u, hu⟩
        refine hg (ih.glob.after ⟨u, ?_⟩)
        simpa [G.log] using hu
    · refine ⟨?_, ih.glob, ih.hist⟩
      intro u k' hk'
      simp only at hk'
      split at hk'
      · rename_i hu
        subst hu
        rcases List.mem_cons.1 hk' with h | h
        · subst h; rcases hk with rfl | rfl | rfl <;> trivial
        · exact ih.frames l.t k' (by rw [hst]; exact h)
      · exact ih.frames u k' hk'
    · have hm : ∀ x ∈ s.g.tr, x ∈ (s.g.log l.t .forked).tr := fun x hx => List.mem_cons_of_mem _ hx
      have hg : Good b s.g → Good b (s.g.log l.t .forked) := fun h => SomeMain.mono h hm
      refine ⟨?_, ⟨?_, ?_, ih.glob.ub⟩, ⟨trivial, ih.hist⟩⟩
      · intro u k hk
        simp only at hk
        split at hk
        · rename_i hu
          subst hu
          exact (ih.frames l.t k (by rw [hst]; exact hk)).mono hm hg
        · cases hk
      · exact ih.glob.null.imp id hg
      · rintro ⟨u, hu⟩
        refine hg (ih.glob.after ⟨u, ?_⟩)
        simpa [G.log] using hu

/-! ## One program -/

theorem once_whole (s : S) (l : Lbl) (h : Once s l) : Whole s l := by
  unfold Once at h; unfold Whole
  split <;> simp_all

/-- There is at most one call of __libc_start_main. -/
def One (tr : Hist) : Prop := (tr.filter fun x => isStart x.2).length ≤ 1

theorem One.eq {tr : Hist} (h : One tr) {t u : Tid} {p q : Par} (hp : (t, Ev.start p) ∈ tr)
    (hq : (u, Ev.start q) ∈ tr) : t = u ∧ p = q := by
  have h1 : (t, Ev.start p) ∈ tr.filter fun x => isStart x.2 := List.mem_filter.2 ⟨hp, rfl⟩
  have h2 : (u, Ev.start q) ∈ tr.filter fun x => isStart x.2 := List.mem_filter.2 ⟨hq, rfl⟩
  unfold One at h
  generalize (tr.filter fun x => isStart x.2) = k at h h1 h2
  match k, h, h1, h2 with
  | [x], _, h1, h2 =>
    rw [List.mem_singleton] at h1 h2
    rw [← h1] at h2
    simp only [Prod.mk.injEq, Ev.start.injEq] at h2
    exact ⟨h2.1.symm, h2.2.symm⟩
  | _ :: _ :: _, h, _, _ => simp at h
  | [], _, h1, _ => cases h1

theorem One.times {tr : Hist} (h : One tr) (t : Tid) : times isStart t tr ≤ 1 := by
  refine Nat.le_trans ?_ h
  unfold Start.times
  rw [List.countP_eq_length_filter]
  induction tr with
  | nil => simp
  | cons x tr ih =>
    have h' : One tr := by
      unfold One at h ⊢
      rw [List.filter_cons] at h
      split at h
      · rw [List.length_cons] at h; omega
      · exact h
    have := ih h'
    rw [List.filter_cons, List.filter_cons]
    by_cases hx : isStart x.2 = true
    · by_cases ht : x.1 = t <;> simp [hx, ht] <;> omega
    · simp [hx]; exact this

theorem times_start {t : Tid} {tr : Hist} (h : 0 < times isStart t tr) : ∃ p, (t, Ev.start p) ∈ tr := by
  obtain ⟨e, hm, he⟩ := mem_times.1 h
  cases e <;> simp [isStart] at he
  exact ⟨_, hm⟩

theorem One.other {tr : Hist} (h : One tr) {t u : Tid} (ht : 0 < Start.times isStart t tr)
    (hu : 0 < Start.times isStart u tr) : t = u := by
  obtain ⟨p, hp⟩ := times_start ht
  obtain ⟨q, hq⟩ := times_start hu
  exact (h.eq hp hq).1

/-- What is in new_stinfo. -/
def IOk (g : G) : Frame → Prop
  | .c1 (.ppc _ _ _ _ _ _ _ w) => g.info = w.take 4
  | .s1 p | .s2 p => Exactly p (p.passOn g.info)
  | .libc r => libcCalls g r = MONITOR_MAIN
  | _ => True

theorem iok_weight {g : G} {f : Frame} (h : wAll f = 0) : IOk g f := by
  cases f <;> simp [wAll] at h <;> trivial

theorem iok_info {g g' : G} {f : Frame} (h : IOk g f) (hi : g'.info = g.info) : IOk g' f := by
  have hl : ∀ r, libcCalls g' r = libcCalls g r := by intro r; cases r <;> simp only [libcCalls, hi]
  cases f with
  | c1 p => cases p <;> simp only [IOk] at h ⊢; rw [hi]; exact h
  | s1 p => simp only [IOk] at h ⊢; rw [hi]; exact h
  | s2 p => simp only [IOk] at h ⊢; rw [hi]; exact h
  | libc r => simp only [IOk] at h ⊢; rw [hl]; exact h
  | _ => trivial

theorem weight_zero {w : Frame → Nat} {l : List Frame} (h : weight w l = 0) {f : Frame} (hf : f ∈ l) : w f = 0 := by
  induction l with
  | nil => cases hf
  | cons k l ih =>
    rw [weight_cons] at h
    rcases List.mem_cons.1 hf with rfl | hf
    · omega
    · exact ih (by omega) hf

theorem step_info {b : Build} {g : G} {t : Tid} {v : List Nat} {f : Frame} (hf : FOk b g t f)
    (h : IOk g f) : ∀ k ∈ (fstep b g t v f).2, IOk (fstep b g t v f).1 k := by
  intro k hk
  cases f with
  | s0 p =>
    cases p with
    | x86 => simp only [fstep, List.mem_singleton] at hk; subst hk; exact .x86
    | ppc => simp only [fstep, List.mem_singleton] at hk; subst hk; trivial
  | c0 p =>
    cases p with
    | x86 => simp only [fstep, List.mem_singleton] at hk; subst hk; exact .x86
    | ppc => simp only [fstep, List.mem_singleton] at hk ⊢; subst hk; rfl
  | c1 p =>
    simp only [fstep, List.mem_singleton] at hk ⊢
    subst hk
    cases p with
    | x86 => exact .x86
    | ppc a b c d e p f w =>
      have hw := hf.1.2.2
      simp only [IOk] at h ⊢
      simp only [h]
      match w, hw with
      | w0 :: m :: w2 :: w3 :: ws, _ => exact .ppc
      | [], hw => simp [Par.whole] at hw
      | [_], hw => simp [Par.whole] at hw
      | [_, _], hw => simp [Par.whole] at hw
      | [_, _, _], hw => simp [Par.whole] at hw
  | s1 p =>
    simp only [fstep, List.mem_cons, List.not_mem_nil, or_false] at hk ⊢
    rcases hk with rfl | rfl
    · trivial
    · exact h
  | s2 p =>
    simp only [fstep, List.mem_singleton] at hk ⊢
    subst hk
    simp only [IOk] at h ⊢
    cases p with
    | x86 => rfl
    | ppc a b c d e p f w =>
      simp only [Par.passOn] at h
      simp only [Par.passOn, libcCalls, G.log, if_true]
      generalize g.info = i at h ⊢
      cases h
      rfl
  | libc r =>
    simp only [fstep] at hk
    split at hk <;> simp only [List.mem_singleton] at hk <;> subst hk <;> trivial
  | n0 =>
    simp only [fstep] at hk
    split at hk
    · cases hk
    · simp only [List.mem_singleton] at hk; subst hk; trivial
  | boot => simp only [fstep, List.mem_singleton] at hk; subst hk; trivial
  | w0 a =>
    simp only [fstep, List.mem_cons, List.not_mem_nil, or_false] at hk
    rcases hk with rfl | rfl <;> trivial
  | w1 a => simp only [fstep, List.mem_singleton] at hk; subst hk; trivial
  | w2 a =>
    simp only [fstep, List.mem_cons, List.not_mem_nil, or_false] at hk
    rcases hk with rfl | rfl <;> trivial
  | m0 a =>
    simp only [fstep, List.mem_cons, List.not_mem_nil, or_false] at hk
    rcases hk with rfl | rfl <;> trivial
  | m1 a => simp only [fstep, List.mem_singleton] at hk; subst hk; trivial
  | _ => simp [fstep] at hk

structure Inv1 (b : Build) (s : S) : Prop where
  one : One s.g.tr
  info : ∀ t f, f ∈ s.th t → IOk s.g f
  hist : Always (Exact b) s.g.tr

theorem theMain {b : Build} {a : Addr} {tr : Hist} (h1 : One tr) (h : SomeMain b a tr) : TheMain b a tr := by
  unfold SomeMain at h; unfold TheMain
  split at h
  · rename_i hb; rw [if_pos hb]; exact h
  · rename_i hb; rw [if_neg hb]
    obtain ⟨u, p, hm, hg⟩ := h
    refine ⟨⟨u, p, hm⟩, fun u' p' hm' => ?_⟩
    rw [(h1.eq hm' hm).2]; exact hg

theorem exact_inv {b : Build} {s : S} (h : ReachA Once b s) : Inv1 b s := by
  induction h with
  | init =>
    refine ⟨by simp [One, S.first], ?_, trivial⟩
    intro t f hf
    simp only [S.first] at hf
    split at hf <;> simp only [List.mem_singleton] at hf <;> subst hf <;> trivial
  | @step s s' l hr hl hn ih =>
    have hi := sound_inv once_whole hr
    obtain ⟨f, rest, hst, hc⟩ := next_cases hn
    have hf : FOk b s.g l.t f := hi.frames l.t f (by rw [hst]; exact List.mem_cons_self)
    have hk0 : IOk s.g f := ih.info l.t f (by rw [hst]; exact List.mem_cons_self)
    rcases hc with ⟨v, -, rfl⟩ | ⟨p, hli, -, hfit, rfl⟩ | ⟨k, hk, rfl⟩ | ⟨-, rfl⟩
    · refine ⟨?_, ?_, ?_⟩
      · have : One s.g.tr := ih.one
        rcases fstep_tr b s.g l.t v f with he | ⟨e, he⟩
        · simp only [he]; exact this
        · have hne : isStart e = false := by
            clear hf hk0 hst
            cases f with
            | libc p =>
              simp only [fstep] at he
              split at he <;> simp [G.log] at he <;> rw [← he] <;> rfl
            | n0 => simp only [fstep] at he; split at he <;> simp at he
            | n1 => simp only [fstep] at he; split at he <;> simp at he
            | c0 p => simp only [fstep] at he; split at he <;> simp at he
            | _ => simp [fstep, G.log] at he <;> rw [← he] <;> rfl
          simp only [he]
          unfold One
          rw [List.filter_cons]
          simp only [hne, Bool.false_eq_true, if_false]
          exact this
      · -- the words
        by_cases hinf : (fstep b s.g l.t v f).1.info = s.g.info
        · intro u k hk
          simp only at hk
          split at hk
          · rename_i hu
            subst hu
            rcases List.mem_append.1 hk with h | h
            · exact step_info hf hk0 k h
            · exact iok_info (ih.info l.t k (by rw [hst]; exact List.mem_cons_of_mem _ h)) hinf
          · exact iok_info (ih.info u k hk) hinf
        · have hw : wAll f = 1 := by
            cases f with
            | c0 p => rfl
            | c1 p => rfl
            | libc p => rfl
            | n0 => exfalso; revert hinf; simp only [fstep]; split <;> simp
            | n1 => exfalso; revert hinf; simp only [fstep]; split <;> simp
            | _ => simp [fstep, G.log] at hinf
          have hb : b ≠ .static := by
            cases f with
            | c0 p => exact (given_main hf.1.2.1 hf.1.2.2).1
            | c1 p => exact (given_main hf.1.2.1 hf.1.2.2).1
            | libc p => exfalso; revert hinf; simp only [fstep]; split <;> simp [G.log]
            | n0 => exfalso; revert hinf; simp only [fstep]; split <;> simp
            | n1 => exfalso; revert hinf; simp only [fstep]; split <;> simp
            | _ => simp [fstep, G.log] at hinf
          have h1 := pot_all hb hr l.t
          have h2 := ih.one.times l.t
          rw [hst, weight_cons, hw] at h1
          intro u k hk
          simp only at hk
          split at hk
          · rename_i hu
            subst hu
            rcases List.mem_append.1 hk with h | h
            · exact step_info hf hk0 k h
            · exact iok_weight (weight_zero (by omega) h)
          · rename_i hu
            have h3 := pot_all hb hr u
            have h4 : times isStart u s.g.tr = 0 := by
              apply Classical.byContradiction
              intro hne
              exact hu (ih.one.other (Nat.pos_of_ne_zero hne) (by omega))
            exact iok_weight (weight_zero (by omega) hk)
      · -- the event
        have hT : ∀ {a}, SomeMain b a s.g.tr → TheMain b a s.g.tr := fun h => theMain ih.one h
        have hchain : ∀ (q : Ev → Bool), (∀ t, b ≠ .static → times q t s.g.tr ≤ times isStart t s.g.tr) →
            b ≠ .static → times q l.t s.g.tr < times isStart l.t s.g.tr → ∀ u e, (u, e) ∈ s.g.tr → q e = false := by
          intro q hq hb hlt u e hm
          cases hqe : q e with
          | false => rfl
          | true =>
            exfalso
            have h1 : 0 < times q u s.g.tr := mem_times.2 ⟨e, hm, hqe⟩
            have h2 := hq u hb
            have h3 := ih.one.times l.t
            have : u = l.t := ih.one.other (by omega) (by omega)
            subst this
            omega
        cases f with
        | s2 p =>
          obtain ⟨hb, -⟩ := given_main hf.1.2.1 hf.1.2.2
          have h1 := pot_real hr l.t
          have h2 := pot_top (w := wReal) hst
          have h3 := pot_init hb hr l.t
          simp only [wReal] at h2
          have := hchain isReal (fun t hb => by have := pot_real hr t; have := pot_init hb hr t; omega) hb
            (by omega)
          refine ⟨⟨fun u q hm => ?_, fun u q hm => ?_⟩, ih.hist⟩
          · have := this u _ hm; simp [isReal] at this
          · rw [(ih.one.eq hm hf.1.1).2]; exact hk0
        | m1 a =>
          refine ⟨⟨hT hf.2.2, ?_⟩, ih.hist⟩
          intro u c k hm
          have h1 := pot_main hr l.t
          have h2 := pot_top (w := wMain) hst
          simp only [wMain] at h2
          by_cases hb : b = .static
          · subst hb
            have h3 := pot_libc_static hr l.t
            have h4 : 0 < times isMain u s.g.tr := mem_times.2 ⟨_, hm, rfl⟩
            have h5 := pot_libc_static hr u
            have h6 := pot_main hr u
            have e1 : l.t = 0 := by apply Classical.byContradiction; intro h; rw [if_neg h] at h3; omega
            have e2 : u = 0 := by apply Classical.byContradiction; intro h; rw [if_neg h] at h5; omega
            rw [e1] at h1 h2 h3
            rw [e2] at h4
            simp only [if_true] at h3
            omega
          · have h3 := pot_libc hb hr l.t
            have h4 := pot_real hr l.t
            have h5 := pot_init hb hr l.t
            have := hchain isMain (fun t hb => by
              have := pot_main hr t; have := pot_libc hb hr t; have := pot_real hr t; have := pot_init hb hr t
              omega) hb (by omega) u _ hm
            simp [isMain] at this
        | libc r =>
          simp only [fstep]
          rw [if_pos (show libcCalls s.g r = MONITOR_MAIN from hk0)]
          exact ⟨trivial, ih.hist⟩
        | q => exact ⟨⟨hi.glob.null.imp id hT, fun hx => hT (hi.glob.after hx)⟩, ih.hist⟩
        | s1 p => exact ⟨trivial, ih.hist⟩
        | w2 p => exact ⟨trivial, ih.hist⟩
        | boot => exact ⟨trivial, ih.hist⟩
        | n1 => simp only [fstep]; split <;> exact ih.hist
        | c0 p => simp only [fstep]; split <;> exact ih.hist
        | n0 => simp only [fstep]; split <;> exact ih.hist
        | _ => exact ih.hist
    · simp only [Once, hli] at hl
      have hno : (s.g.tr.filter fun x => isStart x.2) = [] := by
        rw [List.filter_eq_nil_iff]
        intro x hx
        have := List.all_eq_true.1 hl.2 x hx
        simpa using this
      refine ⟨?_, ?_, ⟨trivial, ih.hist⟩⟩
      · unfold One
        simp only [G.log]
        rw [List.filter_cons, hno]
        simp [isStart]
      · intro u k hk
        simp only at hk
        split at hk
        · rename_i hu
          subst hu
          rcases List.mem_cons.1 hk with h | h
          · subst h; trivial
          · exact iok_info (ih.info l.t k (by rw [hst]; exact h)) rfl
        · exact iok_info (ih.info u k hk) rfl
    · refine ⟨ih.one, ?_, ih.hist⟩
      intro u k' hk'
      simp only at hk'
      split at hk'
      · rename_i hu
        subst hu
        rcases List.mem_cons.1 hk' with h | h
        · subst h; rcases hk with rfl | rfl | rfl <;> trivial
        · exact ih.info l.t k' (by rw [hst]; exact h)
      · exact ih.info u k' hk'
    · refine ⟨?_, ?_, ⟨trivial, ih.hist⟩⟩
      · have := ih.one; simpa [One, G.log, isStart] using this
      · intro u k hk
        simp only at hk
        split at hk
        · rename_i hu
          subst hu
          exact iok_info (ih.info l.t k (by rw [hst]; exact hk)) rfl
        · cases hk

end Libmonitor.Start
