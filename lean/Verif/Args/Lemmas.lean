import Verif.Args.Spec

/-! # Invariants for the claim on arguments and status -/

namespace Libmonitor.Args

/-- What a step does. -/
theorem next_cases {static : Bool} {s s' : S} {l : Lbl} (h : next static s l = some s') :
    ∃ f rest, s.th l.t = f :: rest ∧
      ((∃ v, l.i = .go v ∧ s' = { g := (fstep static s.g l.t v f).1, th := fun u =>
          if u = l.t then (fstep static s.g l.t v f).2 ++ rest else s.th u }) ∨
       (l.i = .call .begin ∧ f.foreign = true ∧
          s' = { g := s.g, th := fun u => if u = l.t then .b0 false :: f :: rest else s.th u }) ∨
       (l.i = .call .fortranInit ∧ f.foreign = true ∧
          s' = { g := s.g, th := fun u => if u = l.t then .f0 :: f :: rest else s.th u }) ∨
       (∃ st, l.i = .call (.exit st) ∧ f.foreign = true ∧
          s' = { g := s.g.log l.t (.exitCall st),
                 th := fun u => if u = l.t then .x st :: f :: rest else s.th u }) ∨
       (∃ k, l.i = .call (.setArgc k) ∧ f.foreign = true ∧ s.g.begun = true ∧
          s' = { g := { s.g with argc := k }.log l.t (.clientSet k),
                 th := fun u => if u = l.t then f :: rest else s.th u }) ∨
       (l.i = .interrupt ∧
          s' = { g := s.g, th := fun u => if u = l.t then .app :: f :: rest else s.th u }) ∨
       (l.i = .fork ∧ f.foreign = true ∧
          s' = { g := s.g.log l.t .forked,
                 th := fun u => if u = l.t then .b0 true :: f :: rest else [] })) := by
  obtain ⟨t, i⟩ := l
  simp only [next] at h
  split at h
  · cases h
  · rename_i f rest hst
    refine ⟨f, rest, hst, ?_⟩
    split at h
    · simp only [Option.some.injEq] at h
      exact .inl ⟨_, rfl, h.symm⟩
    · split at h
      · simp only [Option.some.injEq] at h
        exact .inr (.inl ⟨rfl, ‹_›, h.symm⟩)
      · cases h
    · split at h
      · simp only [Option.some.injEq] at h
        exact .inr (.inr (.inl ⟨rfl, ‹_›, h.symm⟩))
      · cases h
    · split at h
      · simp only [Option.some.injEq] at h
        exact .inr (.inr (.inr (.inl ⟨_, rfl, ‹_›, h.symm⟩)))
      · cases h
    · split at h
      · rename_i hc
        simp only [Option.some.injEq] at h
        simp only [Bool.and_eq_true] at hc
        exact .inr (.inr (.inr (.inr (.inl ⟨_, rfl, hc.1, hc.2, h.symm⟩))))
      · cases h
    · simp only [Option.some.injEq] at h
      exact .inr (.inr (.inr (.inr (.inr (.inl ⟨rfl, h.symm⟩)))))
    · split at h
      · simp only [Option.some.injEq] at h
        exact .inr (.inr (.inr (.inr (.inr (.inr ⟨rfl, ‹_›, h.symm⟩)))))
      · cases h

/-! ## Frames there is at most one of, in the main thread -/

/-- At most one frame of this kind, and it is in the main thread. -/
def Tok (p : Frame → Bool) (s : S) : Prop :=
  (∀ t, t ≠ 0 → (s.th t).countP p = 0) ∧ (s.th 0).countP p ≤ 1

theorem tok_none {p : Frame → Bool} {s : S} {t : Tid} {f : Frame} {rest : List Frame}
    (h : Tok p s) (hst : s.th t = f :: rest) (hf : p f = true) :
    t = 0 ∧ rest.countP p = 0 := by
  have ht : t = 0 := by
    apply Classical.byContradiction
    intro hne
    have := h.1 t hne
    rw [hst, List.countP_cons_of_pos hf] at this
    omega
  subst ht
  have := h.2
  rw [hst, List.countP_cons_of_pos hf] at this
  exact ⟨rfl, by omega⟩

/-- No frame of this kind is anywhere. -/
def Nowhere (p : Frame → Bool) (s : S) : Prop := ∀ t, (s.th t).countP p = 0

theorem tok_step {p : Frame → Bool} {static : Bool} {s s' : S} {l : Lbl}
    (hp : ∀ (g : G) (t v : Nat) (f : Frame),
      (fstep static g t v f).2.countP p ≤ if p f then 1 else 0)
    (hq : p (.b0 false) = false ∧ p (.b0 true) = false ∧ p .f0 = false ∧ (∀ st, p (.x st) = false) ∧
      p .app = false)
    (h : Tok p s) (hs : next static s l = some s') : Tok p s' := by
  obtain ⟨f, rest, hst, hc⟩ := next_cases hs
  have key : ∀ st : List Frame, st.countP p ≤ (f :: rest).countP p →
      ∀ g, Tok p { g := g, th := fun u => if u = l.t then st else s.th u } := by
    intro st hle g
    rw [← hst] at hle
    refine ⟨?_, ?_⟩
    · intro t ht
      simp only
      split
      · rename_i e; subst e; have := h.1 _ ht; omega
      · exact h.1 t ht
    · simp only
      split
      · rename_i e; rw [← e] at hle; have := h.2; omega
      · exact h.2
  obtain ⟨q1, q2, q3, q4, q5⟩ := hq
  rcases hc with ⟨v, _, rfl⟩ | ⟨_, _, rfl⟩ | ⟨_, _, rfl⟩ | ⟨st, _, _, rfl⟩ | ⟨k, _, _, _, rfl⟩ |
    ⟨_, rfl⟩ | ⟨_, _, rfl⟩
  · apply key
    rw [List.countP_append, List.countP_cons]
    have := hp s.g l.t v f
    omega
  · exact key _ (by rw [List.countP_cons_of_neg (by simp [q1])]; exact Nat.le_refl _) _
  · exact key _ (by rw [List.countP_cons_of_neg (by simp [q3])]; exact Nat.le_refl _) _
  · exact key _ (by rw [List.countP_cons_of_neg (by simp [q4])]; exact Nat.le_refl _) _
  · exact key _ (Nat.le_refl _) _
  · exact key _ (by rw [List.countP_cons_of_neg (by simp [q5])]; exact Nat.le_refl _) _
  · have := key (.b0 true :: f :: rest)
      (by rw [List.countP_cons_of_neg (by simp [q2])]; exact Nat.le_refl _) s.g
    refine ⟨?_, ?_⟩
    · intro t ht
      have := this.1 t ht
      simp only at this ⊢
      split at this
      · rename_i e; rw [if_pos e]; exact this
      · rename_i e; rw [if_neg e]; rfl
    · have := this.2
      simp only at this ⊢
      split at this
      · rename_i e; rw [if_pos e]; exact this
      · rename_i e; rw [if_neg e]; exact Nat.zero_le _

/-- monitor_main up to the application's main. -/
def Frame.prog : Frame → Bool
  | .pre _ | .m0 _ | .m1 _ | .m2 _ | .m3 _ | .m4 _ | .atMain _ | .m5 _ | .wrap _ | .m6 _ => true
  | _ => false

/-- monitor_main up to init-process. -/
def Frame.early : Frame → Bool
  | .pre _ | .m0 _ | .m1 _ | .m2 _ | .m3 _ => true
  | _ => false

theorem prog_step (static : Bool) (g : G) (t v : Nat) (f : Frame) :
    (fstep static g t v f).2.countP Frame.prog ≤ if f.prog then 1 else 0 := by
  cases f <;> simp only [fstep] <;> (try split) <;> simp_all [List.countP_cons, Frame.prog]

theorem early_step (static : Bool) (g : G) (t v : Nat) (f : Frame) :
    (fstep static g t v f).2.countP Frame.early ≤ if f.early then 1 else 0 := by
  cases f <;> simp only [fstep] <;> (try split) <;> simp_all [List.countP_cons, Frame.early]

theorem tok_first {p : Frame → Bool} {a : Arg} (h : p .app = false) : Tok p (.first a) := by
  refine ⟨?_, ?_⟩
  · intro t ht
    simp [S.first, ht, h]
  · simp only [S.first, if_true, List.countP_cons, List.countP_nil]
    split <;> omega

/-! ## All executions -/

/-- The calls of the exit family that are on a stack are in the history. -/
def SoundFrame (a : Arg) (tr : Hist) (t : Tid) : Frame → Prop
  | .pre b | .m0 b | .m1 b | .m2 b | .m3 b | .m4 b | .atMain b | .m5 b | .wrap b | .m6 b => b = a
  | .m7 st | .x st => (t, Ev.exitCall st) ∈ tr
  | .b2 p => p = 0 ∨ p = a.argv
  | .f1 n => someCount a n tr
  | .f2 n p => someCount a n tr ∧ (p = 0 ∨ p = a.argv)
  | _ => True

/-- The variables have been stored. -/
def stored (a : Arg) (g : G) : Frame → Prop
  | .m2 _ => g.argv = a.argv
  | .m3 _ | .m4 _ | .atMain _ | .m5 _ | .wrap _ | .m6 _ => g.argv = a.argv ∧ g.envp = a.envp
  | _ => True

structure SoundS (a : Arg) (s : S) : Prop where
  tok : Tok Frame.prog s
  main : (∃ u c, (u, Ev.main c) ∈ s.g.tr) → Nowhere Frame.prog s
  argc : someCount a s.g.argc s.g.tr
  argv : s.g.argv = 0 ∨ s.g.argv = a.argv
  frames : ∀ t, ∀ f ∈ s.th t, SoundFrame a s.g.tr t f ∧ stored a s.g f
  hist : Always (Sound a) s.g.tr

theorem someCount_mono {a : Arg} {n : Nat} {tr : Hist} {x : Tid × Ev} (h : someCount a n tr) :
    someCount a n (x :: tr) := by
  rcases h with h | h | ⟨u, h⟩
  · exact .inl h
  · exact .inr (.inl h)
  · exact .inr (.inr ⟨u, List.mem_cons_of_mem _ h⟩)

theorem soundFrame_mono {a : Arg} {tr : Hist} {t : Tid} {x : Tid × Ev} {f : Frame}
    (h : SoundFrame a tr t f) : SoundFrame a (x :: tr) t f := by
  cases f
  case m7 | x => exact List.mem_cons_of_mem _ h
  case f1 => exact someCount_mono h
  case f2 => exact ⟨someCount_mono h.1, h.2⟩
  all_goals exact h

theorem nowhere_of_step {p : Frame → Bool} {s : S} {t : Tid} {st rest : List Frame} {f : Frame}
    {g : G} (h : Tok p s) (hst : s.th t = f :: rest) (hf : p f = true)
    (h0 : st.countP p = 0) :
    Nowhere p { g := g, th := fun u => if u = t then st ++ rest else s.th u } := by
  obtain ⟨rfl, hr⟩ := tok_none h hst hf
  intro u
  simp only
  split
  · rw [List.countP_append]; omega
  · rename_i hu; exact h.1 u hu

theorem nowhere_not {p : Frame → Bool} {s : S} {t : Tid} {rest : List Frame} {f : Frame}
    (h : Nowhere p s) (hst : s.th t = f :: rest) : p f = false := by
  cases hp : p f with
  | false => rfl
  | true =>
    have := h t
    rw [hst, List.countP_cons_of_pos hp] at this
    omega

/-- A step logs at most one event. -/
theorem fstep_tr (static : Bool) (g : G) (t v : Nat) (f : Frame) :
    (fstep static g t v f).1.tr = g.tr ∨ ∃ e, (fstep static g t v f).1.tr = (t, e) :: g.tr ∧
      (∀ c, e = .main c → f = .m6 c) ∧ (∀ k, e ≠ .clientSet k) := by
  cases f
  case m5 | m6 | mainApp | m7 | b2 | f2 | x =>
    refine .inr ⟨_, rfl, ?_, ?_⟩ <;> simp
  case b0 => simp only [fstep]; split <;> exact .inl rfl
  all_goals exact .inl rfl

theorem stored_mono {a : Arg} {g g' : G} {f : Frame} (h : stored a g f)
    (h1 : g'.argv = g.argv ∨ g'.argv = a.argv) (h2 : g'.envp = g.envp ∨ g'.envp = a.envp) :
    stored a g' f := by
  have e1 : g.argv = a.argv → g'.argv = a.argv := by
    intro e; rcases h1 with h1 | h1 <;> simp [h1, e]
  have e2 : g.envp = a.envp → g'.envp = a.envp := by
    intro e; rcases h2 with h2 | h2 <;> simp [h2, e]
  cases f
  case m2 => exact e1 h
  case m3 | m4 | atMain | m5 | wrap | m6 => exact ⟨e1 h.1, e2 h.2⟩
  all_goals trivial

/-- The local part of the invariant. -/
theorem fstep_sound {static : Bool} {a : Arg} {g : G} {t v : Nat} {f : Frame}
    (hf : SoundFrame a g.tr t f) (hst : stored a g f) (ht : f.prog = true → t = 0)
    (hm : f.prog = true → ∀ u c, (u, Ev.main c) ∉ g.tr)
    (hc : someCount a g.argc g.tr) (hv : g.argv = 0 ∨ g.argv = a.argv)
    (hal : Always (Sound a) g.tr) :
    let r := fstep static g t v f
    someCount a r.1.argc r.1.tr ∧ (r.1.argv = g.argv ∨ r.1.argv = a.argv) ∧
      (r.1.envp = g.envp ∨ r.1.envp = a.envp) ∧ Always (Sound a) r.1.tr ∧
      ∀ f' ∈ r.2, SoundFrame a r.1.tr t f' ∧ stored a r.1 f' := by
  cases f
  case app => exact ⟨hc, .inl rfl, .inl rfl, hal, by simp [fstep]⟩
  case pre b => exact ⟨hc, .inl rfl, .inl rfl, hal, by simpa [fstep, stored, SoundFrame] using hf⟩
  case m0 b =>
    refine ⟨?_, .inl rfl, .inl rfl, hal, by simpa [fstep, stored, SoundFrame] using hf⟩
    obtain rfl : b = a := hf
    exact .inr (.inl rfl)
  case m1 b =>
    obtain rfl : b = a := hf
    exact ⟨hc, .inr rfl, .inl rfl, hal, by simp [fstep, stored, SoundFrame]⟩
  case m2 b =>
    obtain rfl : b = a := hf
    exact ⟨hc, .inl rfl, .inr rfl, hal, by
      simpa [fstep, stored, SoundFrame] using hst⟩
  case m3 b => exact ⟨hc, .inl rfl, .inl rfl, hal, by
      simpa [fstep, SoundFrame, stored] using ⟨hf, hst⟩⟩
  case m4 b => exact ⟨hc, .inl rfl, .inl rfl, hal, by
      simpa [fstep, SoundFrame, stored] using ⟨hf, hst⟩⟩
  case atMain b =>
    refine ⟨hc, .inl rfl, .inl rfl, hal, ?_⟩
    simp only [fstep]
    split <;> simpa [SoundFrame, stored] using ⟨hf, hst⟩
  case m5 b =>
    refine ⟨someCount_mono hc, .inl rfl, .inl rfl, ⟨⟨ht rfl, hst.1, hst.2, hc⟩, hal⟩, ?_⟩
    simpa [fstep, SoundFrame, stored] using ⟨hf, hst⟩
  case wrap b => exact ⟨hc, .inl rfl, .inl rfl, hal, by
      simpa [fstep, SoundFrame, stored] using ⟨hf, hst⟩⟩
  case m6 b =>
    exact ⟨someCount_mono hc, .inl rfl, .inl rfl, ⟨⟨hf, ht rfl, hm rfl⟩, hal⟩, by
      simp [fstep, SoundFrame, stored]⟩
  case mainApp =>
    exact ⟨someCount_mono hc, .inl rfl, .inl rfl, ⟨trivial, hal⟩, by
      simp [fstep, SoundFrame, stored, G.log]⟩
  case m7 st => exact ⟨someCount_mono hc, .inl rfl, .inl rfl, ⟨hf, hal⟩, by simp [fstep]⟩
  case b0 k =>
    simp only [fstep]
    split
    · exact ⟨hc, .inl rfl, .inl rfl, hal, by simp⟩
    · exact ⟨hc, .inl rfl, .inl rfl, hal, by simp [SoundFrame, stored]⟩
  case b1 => exact ⟨hc, .inl rfl, .inl rfl, hal, by simpa [fstep, SoundFrame, stored] using hv⟩
  case b2 p =>
    exact ⟨someCount_mono hc, .inl rfl, .inl rfl, ⟨⟨hc, hf⟩, hal⟩, by
      simp [fstep, SoundFrame, stored]⟩
  case f0 => exact ⟨hc, .inl rfl, .inl rfl, hal, by simpa [fstep, SoundFrame, stored] using hc⟩
  case f1 n => exact ⟨hc, .inl rfl, .inl rfl, hal, by
      simpa [fstep, SoundFrame, stored] using ⟨hf, hv⟩⟩
  case f2 n p =>
    exact ⟨someCount_mono hc, .inl rfl, .inl rfl, ⟨hf, hal⟩, by simp [fstep, SoundFrame, stored]⟩
  case x st => exact ⟨someCount_mono hc, .inl rfl, .inl rfl, ⟨hf, hal⟩, by simp [fstep]⟩

theorem sound_inv {A : S → Lbl → Prop} {static : Bool} {a : Arg} {s : S}
    (h : ReachA A static a s) : SoundS a s := by
  induction h with
  | init =>
    refine ⟨tok_first rfl, ?_, .inl rfl, .inl rfl, ?_, trivial⟩
    · rintro ⟨u, c, h⟩; cases h
    · intro t f hf
      simp only [S.first] at hf
      split at hf <;> (simp only [List.mem_singleton] at hf; subst hf)
      · exact ⟨rfl, trivial⟩
      · exact ⟨trivial, trivial⟩
  | @step s s' l _ _ hs ih =>
    have htok := tok_step (prog_step static) ⟨rfl, rfl, rfl, fun _ => rfl, rfl⟩ ih.tok hs
    obtain ⟨f, rest, hst, hc⟩ := next_cases hs
    have hmem : ∀ x ∈ f :: rest, SoundFrame a s.g.tr l.t x ∧ stored a s.g x := by
      rw [← hst]; exact ih.frames l.t
    -- the rest of the cases: no prog frame changes
    have other : ∀ (g' : G) (x : Frame), x.prog = false → SoundFrame a g'.tr l.t x ∧ stored a g' x →
        (g'.tr = s.g.tr ∨ ∃ e, g'.tr = (l.t, e) :: s.g.tr ∧ ∀ c, e ≠ .main c) →
        someCount a g'.argc g'.tr → g'.argv = s.g.argv → g'.envp = s.g.envp →
        Always (Sound a) g'.tr →
        Tok Frame.prog
          { g := g', th := fun u => if u = l.t then x :: f :: rest else s.th u } →
        SoundS a { g := g', th := fun u => if u = l.t then x :: f :: rest else s.th u } := by
      intro g' x hx hxs htr hac hav hev hal htk
      refine ⟨htk, ?_, hac, hav ▸ ih.argv, ?_, hal⟩
      · rintro ⟨u, c, hm⟩
        have hnow : Nowhere Frame.prog s := by
          apply ih.main
          rcases htr with e | ⟨e, e', he⟩
          · exact ⟨u, c, e ▸ hm⟩
          · simp only [e'] at hm
            rcases List.mem_cons.1 hm with e2 | hm
            · cases e2; exact absurd rfl (he _)
            · exact ⟨u, c, hm⟩
        intro w
        simp only
        split
        · have := hnow l.t
          rw [hst] at this
          rw [List.countP_cons_of_neg (by simp [hx])]; exact this
        · exact hnow w
      · have mono : ∀ t x, SoundFrame a s.g.tr t x ∧ stored a s.g x →
            SoundFrame a g'.tr t x ∧ stored a g' x := by
          intro t x h
          refine ⟨?_, stored_mono h.2 (.inl hav) (.inl hev)⟩
          rcases htr with e | ⟨e, e', _⟩
          · rw [e]; exact h.1
          · rw [e']; exact soundFrame_mono h.1
        intro w y hy
        simp only at hy
        split at hy
        · rename_i e; subst e
          rcases List.mem_cons.1 hy with rfl | hy
          · exact hxs
          · exact mono _ _ (hmem y hy)
        · exact mono _ _ (ih.frames w y hy)
    rcases hc with ⟨v, _, rfl⟩ | ⟨_, _, rfl⟩ | ⟨_, _, rfl⟩ | ⟨st, _, _, rfl⟩ | ⟨k, _, hfo, hb, rfl⟩ |
      ⟨_, rfl⟩ | ⟨_, _, rfl⟩
    · have hno : f.prog = true → ∀ u c, (u, Ev.main c) ∉ s.g.tr := by
        intro hp u c hm
        have := nowhere_not (ih.main ⟨u, c, hm⟩) hst
        rw [hp] at this; cases this
      have ht : f.prog = true → l.t = 0 := fun hp => (tok_none ih.tok hst hp).1
      obtain ⟨h1, h2, h3, h4, h5⟩ := fstep_sound (static := static) (v := v)
        (hmem f List.mem_cons_self).1 (hmem f List.mem_cons_self).2 ht hno ih.argc ih.argv ih.hist
      have htr := fstep_tr static s.g l.t v f
      refine ⟨htok, ?_, h1, ?_, ?_, h4⟩
      · rintro ⟨u, c, hm⟩
        by_cases hex : ∃ u c, (u, Ev.main c) ∈ s.g.tr
        · have hnow := ih.main hex
          have hf := nowhere_not hnow hst
          intro w
          simp only
          split
          · have := hnow l.t
            rw [hst, List.countP_cons_of_neg (by simp [hf])] at this
            have hle := prog_step static s.g l.t v f
            rw [hf] at hle
            rw [List.countP_append]
            simp at hle this ⊢
            exact ⟨hle, this⟩
          · exact hnow w
        · have hf : ∃ c, f = .m6 c := by
            rcases htr with e | ⟨e, e', he, _⟩
            · exact absurd ⟨u, c, e ▸ hm⟩ hex
            · simp only [e'] at hm
              rcases List.mem_cons.1 hm with e2 | hm
              · cases e2; exact ⟨_, he _ rfl⟩
              · exact absurd ⟨u, c, hm⟩ hex
          obtain ⟨c, rfl⟩ := hf
          exact nowhere_of_step ih.tok hst rfl rfl
      · rcases h2 with e | e
        · exact e ▸ ih.argv
        · exact .inr e
      · intro w y hy
        have mono : ∀ t x, SoundFrame a s.g.tr t x ∧ stored a s.g x →
            SoundFrame a (fstep static s.g l.t v f).1.tr t x ∧
              stored a (fstep static s.g l.t v f).1 x := by
          intro t x h
          refine ⟨?_, stored_mono h.2 h2 h3⟩
          rcases htr with e | ⟨e, e', _⟩
          · rw [e]; exact h.1
          · rw [e']; exact soundFrame_mono h.1
        simp only at hy
        split at hy
        · rename_i e; subst e
          rcases List.mem_append.1 hy with hy | hy
          · exact h5 y hy
          · exact mono _ _ (hmem y (List.mem_cons_of_mem _ hy))
        · exact mono _ _ (ih.frames w y hy)
    · exact other _ _ rfl ⟨trivial, trivial⟩ (.inl rfl) ih.argc rfl rfl ih.hist htok
    · exact other _ _ rfl ⟨trivial, trivial⟩ (.inl rfl) ih.argc rfl rfl ih.hist htok
    · exact other _ _ rfl ⟨List.mem_cons_self, trivial⟩ (.inr ⟨_, rfl, by simp⟩)
        (someCount_mono ih.argc) rfl rfl ⟨trivial, ih.hist⟩ htok
    · refine ⟨htok, ?_, .inr (.inr ⟨_, List.mem_cons_self⟩), ih.argv, ?_, trivial, ih.hist⟩
      · rintro ⟨u, c, hm⟩
        rcases List.mem_cons.1 hm with e | hm
        · cases e
        · have hnow := ih.main ⟨u, c, hm⟩
          intro w
          simp only
          split
          · rw [← hst]; exact hnow l.t
          · exact hnow w
      · intro w y hy
        have hy' : y ∈ s.th w := by
          simp only at hy
          split at hy
          · rename_i e; rw [e, hst]; exact hy
          · exact hy
        exact ⟨soundFrame_mono (ih.frames w y hy').1,
          stored_mono (ih.frames w y hy').2 (.inl rfl) (.inl rfl)⟩
    · exact other _ _ rfl ⟨trivial, trivial⟩ (.inl rfl) ih.argc rfl rfl ih.hist htok
    · have tk : Tok Frame.prog ⟨s.g.log l.t .forked,
          fun u => if u = l.t then .b0 true :: f :: rest else s.th u⟩ := by
        refine ⟨?_, ?_⟩
        · intro t ht
          have := ih.tok.1 t ht
          simp only
          split
          · rename_i e; rw [e, hst] at this
            rw [List.countP_cons_of_neg (by simp [Frame.prog])]; exact this
          · exact this
        · have := ih.tok.2
          simp only
          split
          · rename_i e; rw [e, hst] at this
            rw [List.countP_cons_of_neg (by simp [Frame.prog])]; exact this
          · exact this
      have := other (s.g.log l.t .forked) (.b0 true) rfl ⟨trivial, trivial⟩
        (.inr ⟨_, rfl, by simp⟩) (someCount_mono ih.argc) rfl rfl ⟨trivial, ih.hist⟩ tk
      refine ⟨htok, ?_, this.argc, this.argv, ?_, this.hist⟩
      · intro hm w
        have := this.main hm w
        simp only at this ⊢
        split
        · rename_i e; rw [if_pos e] at this; exact this
        · rfl
      · intro w y hy
        simp only at hy
        split at hy
        · rename_i e
          exact this.frames w y (by simp only [if_pos e]; exact hy)
        · cases hy

/-! ## Executions in which monitor_main begins the process -/

/-- Code that only runs after the process has begun. -/
def Frame.lib : Frame → Bool
  | .b0 _ | .b1 | .b2 _ | .f0 | .f1 _ | .f2 _ _ | .m4 _ | .atMain _ | .m5 _ | .wrap _ | .m6 _
  | .mainApp | .m7 _ => true
  | _ => false

/-- The count has been stored. -/
def Frame.counted : Frame → Bool
  | .m1 _ | .m2 _ | .m3 _ => true
  | _ => false

def ExactFrame (a : Arg) (tr : Hist) : Frame → Prop
  | .b2 p => p = a.argv
  | .f1 n => Unchanged tr → n = a.argc
  | .f2 n p => (Unchanged tr → n = a.argc) ∧ p = a.argv
  | _ => True

/-- After the stores of monitor_main. -/
def After (a : Arg) (s : S) : Prop :=
  Nowhere Frame.early s ∧ s.g.argv = a.argv ∧ s.g.envp = a.envp ∧ s.g.argc = count a.argc s.g.tr

/-- Before. -/
def Before (a : Arg) (s : S) : Prop :=
  s.g.tr.any (fun x => x.2.isInit) = false ∧ s.g.begun = false ∧ Unchanged s.g.tr ∧
    ∀ t, ∀ f ∈ s.th t, f.lib = false ∧ (f.counted = true → s.g.argc = a.argc)

structure ExactS (a : Arg) (s : S) : Prop where
  tok : Tok Frame.early s
  phase : After a s ∨ Before a s
  frames : ∀ t, ∀ f ∈ s.th t, ExactFrame a s.g.tr f
  hist : Always (Exact a) s.g.tr

theorem unchanged_of_cons {x : Tid × Ev} {tr : Hist} (h : Unchanged (x :: tr)) : Unchanged tr :=
  fun u k hm => h u k (List.mem_cons_of_mem _ hm)

theorem unchanged_cons {t : Tid} {e : Ev} {tr : Hist} (h : Unchanged tr)
    (he : ∀ k, e ≠ .clientSet k) : Unchanged ((t, e) :: tr) := by
  intro u k hm
  rcases List.mem_cons.1 hm with e1 | hm
  · cases e1; exact he _ rfl
  · exact h u k hm

theorem count_cons {n : Nat} {t : Tid} {e : Ev} {tr : Hist} (he : ∀ k, e ≠ .clientSet k) :
    count n ((t, e) :: tr) = count n tr := by
  cases e
  case clientSet k => exact absurd rfl (he k)
  all_goals rfl

theorem count_unchanged {n : Nat} {tr : Hist} (h : Unchanged tr) : count n tr = n := by
  induction tr with
  | nil => rfl
  | cons x tr ih =>
    obtain ⟨t, e⟩ := x
    rw [count_cons (fun k hk => h t k (hk ▸ List.mem_cons_self))]
    exact ih (unchanged_of_cons h)

theorem exactFrame_mono {a : Arg} {tr : Hist} {x : Tid × Ev} {f : Frame}
    (h : ExactFrame a tr f) : ExactFrame a (x :: tr) f := by
  cases f
  case f1 => exact fun hu => h (unchanged_of_cons hu)
  case f2 => exact ⟨fun hu => h.1 (unchanged_of_cons hu), h.2⟩
  all_goals exact h

/-- A step after the stores. -/
theorem fstep_after {static : Bool} {a : Arg} {g : G} {t v : Nat} {f : Frame}
    (hf : ExactFrame a g.tr f) (he : f.early = false)
    (hv : g.argv = a.argv) (hp : g.envp = a.envp) (hc : g.argc = count a.argc g.tr)
    (hal : Always (Exact a) g.tr) :
    let r := fstep static g t v f
    r.1.argv = a.argv ∧ r.1.envp = a.envp ∧ r.1.argc = count a.argc r.1.tr ∧
      Always (Exact a) r.1.tr ∧ ∀ f' ∈ r.2, ExactFrame a r.1.tr f' := by
  have hlog : ∀ e : Ev, (∀ k, e ≠ .clientSet k) →
      (g.log t e).argc = count a.argc (g.log t e).tr := by
    intro e he
    show g.argc = count a.argc ((t, e) :: g.tr)
    rw [count_cons he]; exact hc
  cases f
  case pre | m0 | m1 | m2 | m3 => cases he
  case app => exact ⟨hv, hp, hc, hal, by simp [fstep]⟩
  case m4 | wrap => exact ⟨hv, hp, hc, hal, by simp [fstep, ExactFrame]⟩
  case atMain =>
    refine ⟨hv, hp, hc, hal, ?_⟩
    simp only [fstep]
    split <;> simp [ExactFrame]
  case m5 =>
    exact ⟨hv, hp, hlog _ (by simp), ⟨by simp [Exact, hv, hp, hc], hal⟩, by simp [fstep, ExactFrame]⟩
  case m6 => exact ⟨hv, hp, hlog _ (by simp), ⟨trivial, hal⟩, by simp [fstep, ExactFrame]⟩
  case mainApp => exact ⟨hv, hp, hlog _ (by simp), ⟨trivial, hal⟩, by simp [fstep, ExactFrame]⟩
  case m7 => exact ⟨hv, hp, hlog _ (by simp), ⟨trivial, hal⟩, by simp [fstep]⟩
  case b0 k =>
    simp only [fstep]
    split
    · exact ⟨hv, hp, hc, hal, by simp⟩
    · exact ⟨hv, hp, hc, hal, by simp [ExactFrame]⟩
  case b1 => exact ⟨hv, hp, hc, hal, by simpa [fstep, ExactFrame] using hv⟩
  case b2 p => exact ⟨hv, hp, hlog _ (by simp), ⟨⟨hc, hf⟩, hal⟩, by simp [fstep, ExactFrame]⟩
  case f0 =>
    refine ⟨hv, hp, hc, hal, ?_⟩
    simp only [fstep, List.mem_singleton, forall_eq]
    intro hu
    rw [hc, count_unchanged hu]
  case f1 n =>
    refine ⟨hv, hp, hc, hal, ?_⟩
    simp only [fstep, List.mem_singleton, forall_eq]
    exact ⟨hf, hv⟩
  case f2 n p => exact ⟨hv, hp, hlog _ (by simp), ⟨hf, hal⟩, by simp [fstep, ExactFrame]⟩
  case x st => exact ⟨hv, hp, hlog _ (by simp), ⟨trivial, hal⟩, by simp [fstep]⟩

theorem early_of_nowhere {s : S} {t : Tid} {f : Frame} {rest : List Frame} {st : List Frame} {g : G}
    (h : Nowhere Frame.early s) (hst : s.th t = f :: rest) (h0 : st.countP Frame.early = 0) :
    Nowhere Frame.early { g := g, th := fun u => if u = t then st ++ rest else s.th u } := by
  intro u
  simp only
  split
  · have := h t
    rw [hst, List.countP_cons] at this
    rw [List.countP_append]; omega
  · exact h u

theorem after_push {a : Arg} {s : S} {t : Tid} {x f : Frame} {rest : List Frame} {g : G}
    (h : After a s) (hst : s.th t = f :: rest) (hx : x.early = false)
    (h1 : g.argv = s.g.argv) (h2 : g.envp = s.g.envp) (h3 : g.argc = count a.argc g.tr) :
    After a { g := g, th := fun u => if u = t then x :: f :: rest else s.th u } := by
  refine ⟨?_, h1.trans h.2.1, h2.trans h.2.2.1, h3⟩
  intro u
  simp only
  split
  · have := h.1 t
    rw [hst] at this
    rw [List.countP_cons_of_neg (by simp [hx])]; exact this
  · exact h.1 u

theorem exact_inv {static : Bool} {a : Arg} {s : S} (h : ReachA FromMain static a s) :
    ExactS a s := by
  induction h with
  | init =>
    refine ⟨tok_first rfl, .inr ⟨rfl, rfl, (by intro u k hm; cases hm), ?_⟩, ?_, trivial⟩
    · intro t f hf
      simp only [S.first] at hf
      split at hf <;> (simp only [List.mem_singleton] at hf; subst hf) <;>
        exact ⟨rfl, by simp [Frame.counted]⟩
    · intro t f hf
      simp only [S.first] at hf
      split at hf <;> (simp only [List.mem_singleton] at hf; subst hf) <;> trivial
  | @step s s' l hr hA hs ih =>
    have htok := tok_step (early_step static) ⟨rfl, rfl, rfl, fun _ => rfl, rfl⟩ ih.tok hs
    have hso := sound_inv hr
    obtain ⟨f, rest, hst, hc⟩ := next_cases hs
    have hmem : ∀ x ∈ f :: rest, ExactFrame a s.g.tr x := by
      rw [← hst]; exact ih.frames l.t
    -- frames after a push
    have push : ∀ (g' : G) (x : Frame) (th : Tid → List Frame), ExactFrame a g'.tr x →
        (g'.tr = s.g.tr ∨ ∃ e, g'.tr = (l.t, e) :: s.g.tr) →
        (∀ u, th u = (if u = l.t then x :: f :: rest else s.th u) ∨
          th u = (if u = l.t then x :: f :: rest else [])) →
        ∀ u, ∀ y ∈ th u, ExactFrame a g'.tr y := by
      intro g' x th hx htr hth w y hy
      have mono : ∀ x, ExactFrame a s.g.tr x → ExactFrame a g'.tr x := by
        intro x h
        rcases htr with e | ⟨e, e'⟩
        · rw [e]; exact h
        · rw [e']; exact exactFrame_mono h
      have own : y ∈ x :: f :: rest → ExactFrame a g'.tr y := by
        intro hy
        rcases List.mem_cons.1 hy with rfl | hy
        · exact hx
        · exact mono _ (hmem y hy)
      rcases hth w with e | e
      · rw [e] at hy
        split at hy
        · exact own hy
        · exact mono _ (ih.frames w y hy)
      · rw [e] at hy
        split at hy
        · exact own hy
        · cases hy
    -- a push before the stores
    have before : ∀ (g' : G) (x : Frame), Before a s → x.lib = false → x.counted = false →
        g'.argc = s.g.argc → g'.begun = s.g.begun →
        (g'.tr = s.g.tr ∨ ∃ e, g'.tr = (l.t, e) :: s.g.tr ∧ e.isInit = false ∧
          ∀ k, e ≠ .clientSet k) →
        Before a ⟨g', fun u => if u = l.t then x :: f :: rest else s.th u⟩ := by
      intro g' x hb hx hxc hgc hgb htr
      refine ⟨?_, hgb.trans hb.2.1, ?_, ?_⟩
      · rcases htr with e | ⟨e, e', he, _⟩
        · simp only [e]; exact hb.1
        · simp only [e', List.any_cons, he, Bool.false_or]; exact hb.1
      · rcases htr with e | ⟨e, e', _, he⟩
        · simp only [e]; exact hb.2.2.1
        · simp only [e']; exact unchanged_cons hb.2.2.1 he
      · intro w y hy
        simp only at hy ⊢
        rw [hgc]
        split at hy
        · rcases List.mem_cons.1 hy with rfl | hy
          · exact ⟨hx, by simp [hxc]⟩
          · exact hb.2.2.2 l.t y (hst ▸ hy)
        · exact hb.2.2.2 w y hy
    have init : s.g.tr.any (fun x => x.2.isInit) = true → After a s := by
      intro hi
      rcases ih.phase with h | h
      · exact h
      · rw [h.1] at hi; cases hi
    rcases hc with ⟨v, _, rfl⟩ | ⟨hl, _, rfl⟩ | ⟨hl, _, rfl⟩ | ⟨st, _, _, rfl⟩ |
      ⟨k, _, hfo, hb, rfl⟩ | ⟨_, rfl⟩ | ⟨hl, _, rfl⟩
    · have htr := fstep_tr static s.g l.t v f
      have rest' : ∀ w, ∀ y ∈ (if w = l.t then rest else s.th w),
          ExactFrame a (fstep static s.g l.t v f).1.tr y := by
        intro w y hy
        have : ExactFrame a s.g.tr y := by
          split at hy
          · exact hmem y (List.mem_cons_of_mem _ hy)
          · exact ih.frames w y hy
        rcases htr with e | ⟨e, e', _⟩
        · rw [e]; exact this
        · rw [e']; exact exactFrame_mono this
      have frames : (∀ y ∈ (fstep static s.g l.t v f).2,
            ExactFrame a (fstep static s.g l.t v f).1.tr y) →
          ∀ w, ∀ y ∈ (if w = l.t then (fstep static s.g l.t v f).2 ++ rest else s.th w),
            ExactFrame a (fstep static s.g l.t v f).1.tr y := by
        intro h5 w y hy
        have := rest' w y
        split at hy
        · rename_i e
          rw [if_pos e] at this
          rcases List.mem_append.1 hy with hy | hy
          · exact h5 y hy
          · exact this hy
        · rename_i e
          rw [if_neg e] at this
          exact this hy
      rcases ih.phase with ha | hb
      · have he := nowhere_not ha.1 hst
        obtain ⟨h1, h2, h3, h4, h5⟩ := fstep_after (static := static) (t := l.t) (v := v)
          (hmem f List.mem_cons_self) he ha.2.1 ha.2.2.1 ha.2.2.2 ih.hist
        refine ⟨htok, .inl ⟨early_of_nowhere ha.1 hst ?_, h1, h2, h3⟩, frames h5, h4⟩
        have := early_step static s.g l.t v f
        rw [he] at this
        simpa using this
      · have hfr := hb.2.2.2 l.t
        rw [hst] at hfr
        have hrest : ∀ w, ∀ y ∈ (if w = l.t then rest else s.th w),
            y.lib = false ∧ (y.counted = true → s.g.argc = a.argc) := by
          intro w y hy
          split at hy
          · exact hfr y (List.mem_cons_of_mem _ hy)
          · exact hb.2.2.2 w y hy
        -- all but the end of the early part
        have go : ∀ (g' : G) (fs : List Frame), (fstep static s.g l.t v f) = (g', fs) →
            g'.begun = false →
            (g'.tr = s.g.tr ∨ ∃ e, g'.tr = (l.t, e) :: s.g.tr ∧ e.isInit = false ∧
              ∀ k, e ≠ .clientSet k) →
            (g'.argc = s.g.argc ∨ g'.argc = a.argc) →
            (∀ y ∈ fs, y.lib = false ∧ (y.counted = true → g'.argc = a.argc) ∧
              ExactFrame a g'.tr y) →
            Always (Exact a) g'.tr →
            ExactS a ⟨(fstep static s.g l.t v f).1, fun u =>
              if u = l.t then (fstep static s.g l.t v f).2 ++ rest else s.th u⟩ := by
          intro g' fs hfs hbg htr' hac hfs' hal
          rw [hfs] at htok frames ⊢
          refine ⟨htok, .inr ⟨?_, hbg, ?_, ?_⟩, frames (fun y hy => (hfs' y hy).2.2), hal⟩
          · rcases htr' with e | ⟨e, e', he, _⟩
            · simp only [e]; exact hb.1
            · simp only [e', List.any_cons, he, Bool.false_or]; exact hb.1
          · rcases htr' with e | ⟨e, e', _, he⟩
            · simp only [e]; exact hb.2.2.1
            · simp only [e']; exact unchanged_cons hb.2.2.1 he
          · intro w y hy
            have old : ∀ y : Frame, y.lib = false ∧ (y.counted = true → s.g.argc = a.argc) →
                y.lib = false ∧ (y.counted = true → g'.argc = a.argc) := by
              intro y h
              refine ⟨h.1, fun hy => ?_⟩
              rcases hac with e | e
              · rw [e]; exact h.2 hy
              · exact e
            have hr := hrest w y
            simp only at hy ⊢
            split at hy
            · rename_i e
              rw [if_pos e] at hr
              rcases List.mem_append.1 hy with hy | hy
              · exact ⟨(hfs' y hy).1, (hfs' y hy).2.1⟩
              · exact old y (hr hy)
            · rename_i e
              rw [if_neg e] at hr
              exact old y (hr hy)
        have hso1 := hso.frames l.t f (hst ▸ List.mem_cons_self)
        have hcnt := (hfr f List.mem_cons_self).2
        have hlib := (hfr f List.mem_cons_self).1
        have hbg := hb.2.1
        cases f
        case b0 | b1 | b2 | f0 | f1 | f2 | m4 | atMain | m5 | wrap | m6 | mainApp | m7 =>
          cases hlib
        case m3 b =>
          refine ⟨htok, .inl ⟨nowhere_of_step ih.tok hst rfl rfl, hso1.2.1, hso1.2.2, ?_⟩,
            frames (by simp [fstep, ExactFrame]), ih.hist⟩
          show s.g.argc = count a.argc s.g.tr
          rw [count_unchanged hb.2.2.1]; exact hcnt rfl
        case app =>
          exact go _ _ rfl hbg (.inl rfl) (.inl rfl) (by simp) ih.hist
        case pre b =>
          exact go _ _ rfl hbg (.inl rfl) (.inl rfl)
            (by simp [Frame.lib, Frame.counted, ExactFrame]) ih.hist
        case m0 b =>
          have : b = a := hso1.1
          subst this
          exact go _ _ rfl hbg (.inl rfl) (.inr rfl) (by simp [Frame.lib, ExactFrame]) ih.hist
        case m1 b =>
          exact go _ _ rfl hbg (.inl rfl) (.inl rfl)
            (by simpa [Frame.lib, ExactFrame] using fun _ => hcnt rfl) ih.hist
        case m2 b =>
          exact go _ _ rfl hbg (.inl rfl) (.inl rfl)
            (by simpa [Frame.lib, ExactFrame] using fun _ => hcnt rfl) ih.hist
        case x =>
          exact go _ _ rfl hbg (.inr ⟨_, rfl, rfl, by simp⟩) (.inl rfl)
            (by simp) ⟨trivial, ih.hist⟩
    · have ha := init (by have := hA; simp only [FromMain, hl] at this; exact this)
      exact ⟨htok, .inl (after_push ha hst rfl rfl rfl ha.2.2.2),
        push s.g (.b0 false) _ trivial (.inl rfl) (fun u => .inl rfl), ih.hist⟩
    · have ha := init (by have := hA; simp only [FromMain, hl] at this; exact this)
      exact ⟨htok, .inl (after_push ha hst rfl rfl rfl ha.2.2.2),
        push s.g .f0 _ trivial (.inl rfl) (fun u => .inl rfl), ih.hist⟩
    · refine ⟨htok, ?_, push (s.g.log l.t (.exitCall st)) (.x st) _ trivial (.inr ⟨_, rfl⟩)
        (fun u => .inl rfl), trivial, ih.hist⟩
      rcases ih.phase with ha | hb
      · refine .inl (after_push ha hst rfl rfl rfl ?_)
        show s.g.argc = count a.argc ((l.t, Ev.exitCall st) :: s.g.tr)
        rw [count_cons (by simp)]; exact ha.2.2.2
      · exact .inr (before _ _ hb rfl rfl rfl rfl (.inr ⟨_, rfl, rfl, by simp⟩))
    · have ha : After a s := by
        rcases ih.phase with h | h
        · exact h
        · rw [h.2.1] at hb; cases hb
      refine ⟨htok, .inl ⟨?_, ha.2.1, ha.2.2.1, rfl⟩, ?_, trivial, ih.hist⟩
      · intro u
        simp only
        split
        · rw [← hst]; exact ha.1 l.t
        · exact ha.1 u
      · intro w y hy
        have hy' : y ∈ s.th w := by
          simp only at hy
          split at hy
          · rename_i e; rw [e, hst]; exact hy
          · exact hy
        exact exactFrame_mono (ih.frames w y hy')
    · refine ⟨htok, ?_, push s.g .app _ trivial (.inl rfl) (fun u => .inl rfl), ih.hist⟩
      rcases ih.phase with ha | hb
      · exact .inl (after_push ha hst rfl rfl rfl ha.2.2.2)
      · exact .inr (before _ _ hb rfl rfl rfl rfl (.inl rfl))
    · have ha := init (by have := hA; simp only [FromMain, hl] at this; exact this)
      have hcnt : s.g.argc = count a.argc ((l.t, Ev.forked) :: s.g.tr) := by
        rw [count_cons (by simp)]; exact ha.2.2.2
      have := after_push (g := s.g.log l.t .forked) ha hst (x := .b0 true) rfl rfl rfl hcnt
      refine ⟨htok, .inl ⟨?_, this.2.1, this.2.2.1, this.2.2.2⟩,
        push (s.g.log l.t .forked) (.b0 true) _ trivial (.inr ⟨_, rfl⟩) (fun u => .inr rfl),
        trivial, ih.hist⟩
      intro u
      have := this.1 u
      simp only at this ⊢
      split
      · rename_i e; rw [if_pos e] at this; exact this
      · rfl

end Libmonitor.Args
