import Verif.Proc.SpecThread
import Verif.Proc.Data
/-!
# Ownership of thread records: invariants of clean executions
-/

namespace Libmonitor.Proc

/-- `frames_inv` with the execution at hand. -/
theorem frames_invA {A : S → Lbl → Prop} {GI : G → Prop} {FI : G → Tid → Frame → Prop}
    (hGI : GI {}) (hFI : FI {} 0 .start)
    (hgo : ∀ {s : S} {t : Tid} {f : Frame} {rest : List Frame} {ok : Bool} {v : Nat} {g' : G}
      {nx : Next} {sp : Option Frame}, ReachA A s → A s (.step t (.go ok v)) →
      s.th t = f :: rest → GI s.g → (∀ u h, h ∈ s.th u → FI s.g u h) →
      fstep s.g t ok v f = some (g', nx, sp) →
      GI g' ∧ (∀ u h, h ∈ s.th u → (u = t → h ∈ rest) → FI g' u h) ∧
        (nx = .die → FI g' t f) ∧
        (∀ l, nx = .go l → ∀ h ∈ l, FI g' t h) ∧
        (∀ h, sp = some h → FI g' s.g.nextTid h) ∧
        (nx = .unwind → ∀ h ∈ unwound rest, FI g' t h))
    (hdead : ∀ g : G, GI g → GI { g with dead := true })
    (hdeadF : ∀ (g : G) (u : Tid) (h : Frame), FI g u h → FI { g with dead := true } u h)
    (hpush : ∀ {s : S} {t : Tid} {i : Inp} {h : Frame}, ReachA A s → A s (.step t i) →
      GI s.g → s.th t ≠ [] → (∀ u h, h ∈ s.th u → FI s.g u h) → i ≠ .unwind →
      (∀ ok v, i ≠ .go ok v) → h.pushable = true → h ≠ .tdtor → FI s.g t h)
    (hunw : ∀ {s : S} {t : Tid}, ReachA A s → A s (.step t .unwind) → GI s.g →
      s.th t ≠ [] → (∀ u h, h ∈ s.th u → FI s.g u h) → ∀ h ∈ unwound (s.th t), FI s.g t h)
    (hfork : ∀ {s : S} {t : Tid} {c : Nat} {d : Data} {rest : List Frame}, ReachA A s →
      A s (.fork t) → s.th t = .fkReal c d :: rest → GI s.g → (∀ u h, h ∈ s.th u → FI s.g u h) →
      GI (s.g.emit t (.forked false)) ∧
        ∀ h ∈ Frame.bp0 true d :: .fkChild c :: rest, FI (s.g.emit t (.forked false)) t h)
    (hrf : ∀ {s : S} {t : Tid} {rest : List Frame}, ReachA A s →
      A s (.fork t) → s.th t = .rf :: rest → GI s.g → (∀ u h, h ∈ s.th u → FI s.g u h) →
      GI (s.g.emit t (.forked true)) ∧
        ∀ h ∈ Frame.rfReset :: rest, FI (s.g.emit t (.forked true)) t h)
    {s : S} (hs : ReachA A s) : GI s.g ∧ ∀ u h, h ∈ s.th u → FI s.g u h := by
  induction hs with
  | init =>
    refine ⟨hGI, fun u h hm => ?_⟩
    simp only at hm
    split at hm
    · rename_i e
      rw [List.mem_singleton] at hm
      rw [e, hm]; exact hFI
    · cases hm
  | @next s s' l hr hA hn ih =>
    obtain ⟨iG, iF⟩ := ih
    have hm := move_of_next hn
    cases hm with
    | @go t f rest ok v r hd ht hf =>
      obtain ⟨g', nx, sp⟩ := r
      obtain ⟨h1, h2, h3, h4, h5, h6⟩ := hgo hr hA ht iG iF hf
      have hsp : ∀ {u h}, h ∈ (match sp with
          | some f => setTh s.th s.g.nextTid [f]
          | none => s.th) u → h ∈ s.th u ∨ (sp = some h ∧ u = s.g.nextTid) := by
        intro u h hm
        cases sp with
        | none => exact Or.inl hm
        | some f0 =>
          rcases mem_setTh hm with ⟨e, hm⟩ | ⟨_, hm⟩
          · rw [List.mem_singleton] at hm; exact Or.inr ⟨by rw [hm], e⟩
          · exact Or.inl hm
      have hold : ∀ {u h}, u ≠ t → h ∈ (match sp with
          | some f => setTh s.th s.g.nextTid [f]
          | none => s.th) u → FI g' u h := by
        intro u h hu hm
        rcases hsp hm with hm | ⟨e, eu⟩
        · exact h2 u h hm (fun e => absurd e hu)
        · rw [eu]; exact h5 h e
      have hrest : ∀ {h}, h ∈ rest → FI g' t h := fun hm =>
        h2 t _ (by rw [ht]; exact List.mem_cons_of_mem _ hm) (fun _ => hm)
      cases nx with
      | go l =>
        refine ⟨h1, fun u h hm => ?_⟩
        rcases mem_setTh hm with ⟨e, hm⟩ | ⟨e, hm⟩
        · rw [e]
          rcases List.mem_append.1 hm with hm | hm
          · exact h4 l rfl h hm
          · exact hrest hm
        · exact hold e hm
      | unwind =>
        refine ⟨h1, fun u h hm => ?_⟩
        rcases mem_setTh hm with ⟨e, hm⟩ | ⟨e, hm⟩
        · rw [e]; exact h6 rfl h hm
        · exact hold e hm
      | die =>
        refine ⟨hdead _ h1, fun u h hm => hdeadF _ _ _ ?_⟩
        by_cases e : u = t
        · subst e
          rcases hsp hm with hm | ⟨e, eu⟩
          · rw [ht] at hm
            rcases List.mem_cons.1 hm with hm | hm
            · rw [hm]; exact h3 rfl
            · exact hrest hm
          · rw [eu]; exact h5 h e
        · exact hold e hm
    | @call t f rest a hd ht hf =>
      refine ⟨iG, fun u h hm => ?_⟩
      rcases mem_setTh hm with ⟨e, hm⟩ | ⟨_, hm⟩
      · rcases List.mem_append.1 hm with hm | hm
        · rw [e]
          refine hpush (s := s) hr hA iG (by rw [ht]; simp) iF (by simp) (by simp) (api_pushable hm) ?_
          intro e; subst e
          cases a <;> simp only [Api.frames] at hm <;> (try split at hm) <;> simp at hm
        · exact e ▸ iF t h (by rw [ht]; exact hm)
      · exact iF _ _ hm
    | @unwind t f rest hd ht hf =>
      refine ⟨iG, fun u h hm => ?_⟩
      rcases mem_setTh hm with ⟨e, hm⟩ | ⟨_, hm⟩
      · rw [e]; exact hunw (s := s) hr hA iG (by rw [ht]; simp) iF h (by rw [ht]; exact hm)
      · exact iF _ _ hm
    | @deliver t f rest hd ht hon hh =>
      refine ⟨iG, fun u h hm => ?_⟩
      rcases mem_setTh hm with ⟨e, hm⟩ | ⟨_, hm⟩
      · rw [e]
        rcases List.mem_cons.1 hm with hm | hm
        · exact hpush (s := s) hr hA iG (by rw [ht]; simp) iF (by simp) (by simp) (by rw [hm]; rfl)
            (by rw [hm]; simp)
        · exact iF t h (by rw [ht]; exact hm)
      · exact iF _ _ hm
    | @interrupt t f rest hd ht =>
      refine ⟨iG, fun u h hm => ?_⟩
      rcases mem_setTh hm with ⟨e, hm⟩ | ⟨_, hm⟩
      · rw [e]
        rcases List.mem_cons.1 hm with hm | hm
        · exact hpush (s := s) hr hA iG (by rw [ht]; simp) iF (by simp) (by simp) (by rw [hm]; rfl)
            (by rw [hm]; simp)
        · exact iF t h (by rw [ht]; exact hm)
      · exact iF _ _ hm
    | @fork t c d rest hd ht =>
      obtain ⟨h1, h2⟩ := hfork hr hA ht iG iF
      refine ⟨h1, fun u h hm => ?_⟩
      rcases mem_setTh (th := fun _ => []) (t := t)
        (l := Frame.bp0 true d :: .fkChild c :: rest) hm with ⟨e, hm⟩ | ⟨_, hm⟩
      · rw [e]; exact h2 h hm
      · cases hm
    | @realFork t rest hd ht =>
      obtain ⟨h1, h2⟩ := hrf hr hA ht iG iF
      refine ⟨h1, fun u h hm => ?_⟩
      rcases mem_setTh (th := fun _ => []) (t := t) (l := Frame.rfReset :: rest) hm with
        ⟨e, hm⟩ | ⟨_, hm⟩
      · rw [e]; exact h2 h hm
      · cases hm

/-- `stack_inv` with the execution at hand. -/
theorem stack_invA {A : S → Lbl → Prop} {GI : G → Prop} {SI : G → Tid → List Frame → Prop}
    (hGI : GI {}) (hSI : SI {} 0 [.start]) (hnil : ∀ u, u ≠ 0 → SI {} u [])
    (hgo : ∀ {s : S} {t : Tid} {f : Frame} {rest : List Frame} {ok : Bool} {v : Nat} {g' : G}
      {nx : Next} {sp : Option Frame}, ReachA A s → A s (.step t (.go ok v)) →
      s.th t = f :: rest → GI s.g →
      (∀ u, SI s.g u (s.th u)) → fstep s.g t ok v f = some (g', nx, sp) →
      GI g' ∧ (∀ u, u ≠ t → (sp = none ∨ u ≠ s.g.nextTid) → SI g' u (s.th u)) ∧
        (nx = .die → SI g' t (f :: rest)) ∧
        (nx = .unwind → SI g' t (unwound rest)) ∧
        (∀ l, nx = .go l → SI g' t (l ++ rest)) ∧ (∀ f0, sp = some f0 → SI g' s.g.nextTid [f0]))
    (hdead : ∀ g : G, GI g → GI { g with dead := true })
    (hdeadS : ∀ (g : G) (u : Tid) (l : List Frame), SI g u l → SI { g with dead := true } u l)
    (hpush : ∀ {s : S} {t : Tid} {i : Inp} {f : Frame} {rest pre : List Frame}, ReachA A s →
      A s (.step t i) → s.th t = f :: rest → GI s.g → (∀ u, SI s.g u (s.th u)) → i ≠ .unwind →
      (∀ ok v, i ≠ .go ok v) → (∀ h ∈ pre, h.pushable = true ∧ h ≠ .tdtor) →
      SI s.g t (pre ++ f :: rest))
    (hunw : ∀ {s : S} {t : Tid}, ReachA A s → A s (.step t .unwind) → GI s.g →
      s.th t ≠ [] → (∀ u, SI s.g u (s.th u)) → SI s.g t (unwound (s.th t)))
    (hfork : ∀ {s : S} {t : Tid} {c : Nat} {d : Data} {rest : List Frame}, ReachA A s →
      A s (.fork t) → s.th t = .fkReal c d :: rest → GI s.g → (∀ u, SI s.g u (s.th u)) →
      GI (s.g.emit t (.forked false)) ∧
        SI (s.g.emit t (.forked false)) t (.bp0 true d :: .fkChild c :: rest) ∧
        ∀ u, u ≠ t → SI (s.g.emit t (.forked false)) u [])
    (hrf : ∀ {s : S} {t : Tid} {rest : List Frame}, ReachA A s → A s (.fork t) →
      s.th t = .rf :: rest → GI s.g → (∀ u, SI s.g u (s.th u)) →
      GI (s.g.emit t (.forked true)) ∧
        SI (s.g.emit t (.forked true)) t (.rfReset :: rest) ∧
        ∀ u, u ≠ t → SI (s.g.emit t (.forked true)) u [])
    {s : S} (hs : ReachA A s) : GI s.g ∧ ∀ u, SI s.g u (s.th u) := by
  have set : ∀ {s : S} {t : Tid} {l : List Frame}, (∀ u, SI s.g u (s.th u)) → SI s.g t l →
      ∀ u, SI s.g u (setTh s.th t l u) := by
    intro s t l ih hl u
    by_cases e : u = t
    · subst e; rw [setTh_self]; exact hl
    · rw [setTh_ne _ _ e]; exact ih u
  have setE : ∀ {g : G} {t : Tid} {l : List Frame}, SI g t l → (∀ u, u ≠ t → SI g u []) →
      ∀ u, SI g u (setTh (fun _ => []) t l u) := by
    intro g t l hl hn u
    by_cases e : u = t
    · subst e; rw [setTh_self]; exact hl
    · rw [setTh_ne _ _ e]; exact hn u e
  induction hs with
  | init =>
    refine ⟨hGI, fun u => ?_⟩
    show SI {} u (if u = 0 then [Frame.start] else [])
    split
    · rename_i e; rw [e]; exact hSI
    · rename_i e; exact hnil u e
  | @next s s' l hr hA hn ih =>
    obtain ⟨iG, iS⟩ := ih
    have hm := move_of_next hn
    cases hm with
    | @go t f rest ok v r hd ht hf =>
      obtain ⟨g', nx, sp⟩ := r
      obtain ⟨h1, h2, h3, h4, h5, h6⟩ := hgo hr hA ht iG iS hf
      rcases fstep_spawn hf with ⟨rfl, e⟩ | ⟨f0, l, rfl, e, rfl⟩
      · cases nx with
        | go l =>
          refine ⟨h1, fun u => ?_⟩
          show SI g' u (setTh s.th t (l ++ rest) u)
          by_cases eu : u = t
          · subst eu; rw [setTh_self]; exact h5 l rfl
          · rw [setTh_ne _ _ eu]; exact h2 u eu (Or.inl rfl)
        | unwind =>
          refine ⟨h1, fun u => ?_⟩
          show SI g' u (setTh s.th t (unwound rest) u)
          by_cases eu : u = t
          · subst eu; rw [setTh_self]; exact h4 rfl
          · rw [setTh_ne _ _ eu]; exact h2 u eu (Or.inl rfl)
        | die =>
          refine ⟨hdead _ h1, fun u => hdeadS _ _ _ ?_⟩
          show SI g' u (s.th u)
          by_cases eu : u = t
          · subst eu; rw [ht]; exact h3 rfl
          · exact h2 u eu (Or.inl rfl)
      · have hfr := fresh_inv hr s.g.nextTid (Nat.le_refl _)
        have hne : t ≠ s.g.nextTid := by
          intro e'; rw [e', hfr] at ht; cases ht
        refine ⟨h1, fun u => ?_⟩
        show SI g' u (setTh (setTh s.th s.g.nextTid [f0]) t (l ++ rest) u)
        by_cases eu : u = t
        · subst eu; rw [setTh_self]; exact h5 l rfl
        · rw [setTh_ne _ _ eu]
          by_cases en : u = s.g.nextTid
          · rw [en, setTh_self]; exact h6 f0 rfl
          · rw [setTh_ne _ _ en]; exact h2 u eu (Or.inr en)
    | @call t f rest a hd ht hf =>
      refine ⟨iG, set iS (hpush (s := s) hr hA ht iG iS (by simp) (by simp) ?_)⟩
      intro h hm
      refine ⟨api_pushable hm, ?_⟩
      intro e; subst e
      cases a <;> simp only [Api.frames] at hm <;> (try split at hm) <;> simp at hm
    | @unwind t f rest hd ht hf =>
      have := hunw (s := s) hr hA iG (by rw [ht]; simp) iS
      rw [ht] at this
      exact ⟨iG, set iS this⟩
    | @deliver t f rest hd ht hon hh =>
      exact ⟨iG, set iS (hpush (s := s) (pre := [.h0]) hr hA ht iG iS (by simp) (by simp)
        (by simp [Frame.pushable]))⟩
    | @interrupt t f rest hd ht =>
      exact ⟨iG, set iS (hpush (s := s) (pre := [.app]) hr hA ht iG iS (by simp) (by simp)
        (by simp [Frame.pushable]))⟩
    | @fork t c d rest hd ht =>
      obtain ⟨h1, h2, h3⟩ := hfork hr hA ht iG iS
      exact ⟨h1, setE h2 h3⟩
    | @realFork t rest hd ht =>
      obtain ⟨h1, h2, h3⟩ := hrf hr hA ht iG iS
      exact ⟨h1, setE h2 h3⟩

theorem mainOf_cons (t : Tid) {e : Ev} (tr : Hist) (h : e.isForked = false) :
    mainOf ((t, e) :: tr) = mainOf tr := by
  simp [mainOf, h]

theorem mainOf_fstep {g g' : G} {t : Tid} {ok : Bool} {v : Nat} {f : Frame} {nx : Next}
    {sp : Option Frame} (h : fstep g t ok v f = some (g', nx, sp)) :
    mainOf g'.tr = mainOf g.tr := by
  obtain ⟨es, he, hf⟩ := fstep_forked h
  rw [he]
  clear he h
  induction es with
  | nil => rfl
  | cons e es ih =>
    show mainOf ((t, e) :: _) = _
    rw [mainOf_cons _ _ (hf e List.mem_cons_self)]
    exact ih (fun e he => hf e (List.mem_cons_of_mem _ he))

/-- A step ends the birth only by an event. -/
theorem born_fstep {g g' : G} {t : Tid} {ok : Bool} {v : Nat} {f : Frame} {nx : Next}
    {sp : Option Frame} (h : fstep g t ok v f = some (g', nx, sp)) (hb : born g'.tr = true) :
    g'.tr = g.tr := by
  obtain ⟨es, he, hf⟩ := fstep_forked h
  cases es with
  | nil => exact he
  | cons e es =>
    rw [he] at hb
    have := hf e List.mem_cons_self
    simp [born, this] at hb

/-- While the child's thread list is not reset, the child has one thread, whose top frame does
that. -/
theorem birth_inv {s : S} (hs : ReachA Clean s) (hb : born s.g.tr = true) :
    ∃ f rest, s.th (mainOf s.g.tr) = f :: rest ∧ f.resetting = true ∧
      (∀ h ∈ rest, h.forkOk = true) ∧ ∀ u, u ≠ mainOf s.g.tr → s.th u = [] := by
  induction hs with
  | init => cases hb
  | @next s s' l hr hA hn ih =>
    have hm := move_of_next hn
    cases hm with
    | @go t f rest ok v r hd ht hf =>
      obtain ⟨g', nx, sp⟩ := r
      have hg : (applyRes s t rest (g', nx, sp)).g.tr = g'.tr := by
        rw [applyRes_g]; split <;> rfl
      rw [hg] at hb ⊢
      have e := born_fstep hf hb
      rw [e] at hb ⊢
      obtain ⟨f0, rest0, h1, h2, h3, h4⟩ := ih hb
      have et : t = mainOf s.g.tr := by
        by_cases et : t = mainOf s.g.tr
        · exact et
        · rw [h4 t et] at ht; cases ht
      rw [← et, ht] at h1
      injection h1 with e1 e2; subst e1; subst e2
      rw [← et]
      clear hn hg
      cases f <;> first | (simp [Frame.resetting] at h2; done) | skip
      · simp only [Frame.resetting] at h2
        subst h2
        fstep_cases hf
        · refine ⟨.bpReset _, rest, setTh_self _ _ _, rfl, h3, fun u hu => ?_⟩
          show setTh s.th t _ u = []
          rw [setTh_ne _ _ hu]; exact h4 u (by rw [← et]; exact hu)
        all_goals rename_i h _; exact absurd trivial h
      · fstep_cases hf
        simp [G.emit, G.upd] at e
      · fstep_cases hf
        simp [G.emit] at e
    | @call t f rest a hd ht hf =>
      obtain ⟨f0, rest0, h1, h2, h3, h4⟩ := ih hb
      by_cases et : t = mainOf s.g.tr
      · rw [← et, ht] at h1
        injection h1 with e1 e2; subst e1
        cases f <;> first | (simp [Frame.resetting] at h2; done) | (simp [Frame.foreign] at hf; done)
      · rw [h4 t et] at ht; cases ht
    | @unwind t f rest hd ht hf =>
      obtain ⟨f0, rest0, h1, h2, h3, h4⟩ := ih hb
      by_cases et : t = mainOf s.g.tr
      · rw [← et, ht] at h1
        injection h1 with e1 e2; subst e1
        cases f <;> first | (simp [Frame.resetting] at h2; done) | (simp [Frame.foreign] at hf; done)
      · rw [h4 t et] at ht; cases ht
    | @deliver t f rest hd ht hon hh =>
      have := hA.1
      have hb : born s.g.tr = true := hb
      rw [hb] at this; cases this
    | @interrupt t f rest hd ht =>
      have := hA.1
      have hb : born s.g.tr = true := hb
      rw [hb] at this; cases this
    | @fork t c d rest hd ht =>
      have em : mainOf (s.g.emit t (.forked false)).tr = t := rfl
      refine ⟨.bp0 true d, .fkChild c :: rest, ?_, rfl, ?_, ?_⟩
      · rw [em]; exact setTh_self (fun _ => []) t _
      · intro h hm
        rcases List.mem_cons.1 hm with hm | hm
        · subst hm; rfl
        · exact hA h (by rw [ht]; exact List.mem_cons_of_mem _ hm)
      · intro u hu
        rw [em] at hu
        show setTh (fun _ => []) t _ u = []
        rw [setTh_ne _ _ hu]
    | @realFork t rest hd ht =>
      have em : mainOf (s.g.emit t (.forked true)).tr = t := rfl
      refine ⟨.rfReset, rest, ?_, rfl, ?_, ?_⟩
      · rw [em]; exact setTh_self (fun _ => []) t _
      · intro h hm
        exact hA h (by rw [ht]; exact List.mem_cons_of_mem _ hm)
      · intro u hu
        rw [em] at hu
        show setTh (fun _ => []) t _ u = []
        rw [setTh_ne _ _ hu]

/-- Only the reset steps during the birth. -/
theorem birth_step {s : S} (hs : ReachA Clean s) {t : Tid} {f : Frame} {rest : List Frame}
    (ht : s.th t = f :: rest) (hb : born s.g.tr = true) :
    t = mainOf s.g.tr ∧ f.resetting = true ∧ (∀ h ∈ rest, h.forkOk = true) ∧
      ∀ u, u ≠ t → s.th u = [] := by
  obtain ⟨f0, rest0, h1, h2, h3, h4⟩ := birth_inv hs hb
  by_cases et : t = mainOf s.g.tr
  · rw [← et, ht] at h1
    injection h1 with e1 e2; subst e1; subst e2
    exact ⟨et, h2, h3, fun u hu => h4 u (by rw [← et]; exact hu)⟩
  · rw [h4 t et] at ht; cases ht


/-- Frames at the bottom of a stack. -/
def Frame.bottom : Frame → Bool
  | .bt0 _ | .bt1 _ | .bt2 _ | .bt3 _ | .btInit _ | .bt4 _ | .bt5 _ | .btApp _ | .ign .. | .ignApp
  | .tdtor => true
  | _ => false

/-- Frames of the cleanup routine. -/
def Frame.cleanup : Frame → Bool
  | .cl0 _ | .ul0 _ | .ul1 _ => true
  | .fin0 _ src | .finCb _ src _ => decide (src = .cleanup)
  | _ => false

/-- monitor_begin_thread is the outermost call of a thread; the cleanup routine runs when all
other calls are gone. -/
def Shape : List Frame → Prop
  | [] => True
  | f :: rest => (f.bottom = true → rest = []) ∧ (f.cleanup = true → rest = [.tdtor]) ∧ Shape rest

theorem shape_unwound (l : List Frame) : Shape (unwound l) := by
  rcases unwound_cases l with h | ⟨_, n, _, _, h⟩ <;> rw [h] <;>
    simp [Shape, Frame.bottom, Frame.cleanup]

theorem shape_go {g g' : G} {t : Tid} {ok : Bool} {v : Nat} {f : Frame} {rest l : List Frame}
    {sp : Option Frame} (h : fstep g t ok v f = some (g', .go l, sp)) (hs : Shape (f :: rest)) :
    Shape (l ++ rest) := by
  obtain ⟨h1, h2, h3⟩ := hs
  cases f <;> fstep_cases h <;>
    simp_all [Shape, Frame.bottom, Frame.cleanup]

theorem shape_inv {A : S → Lbl → Prop} {s : S} (hs : ReachA A s) (t : Tid) : Shape (s.th t) := by
  refine (stack_inv (GI := fun _ => True) (SI := fun _ _ l => Shape l) trivial ?_ ?_
    (fun _ h => h) (fun _ _ _ h => h) ?_ ?_ ?_ ?_ (fun _ _ h => h) trivial ?_ ?_ hs).2 t
  · simp [Shape, Frame.bottom, Frame.cleanup]
  · intro s t f rest ok v g' nx sp hr hA ht _ hS hf
    have := hS t
    rw [ht] at this
    refine ⟨trivial, fun _ _ h => h, fun _ => this, fun _ => this.2.2, ?_, ?_⟩
    · intro l e; subst e; exact shape_go hf this
    · intro f0 e
      refine ⟨fun _ => rfl, ?_, trivial⟩
      intro hc
      subst e
      cases f <;> fstep_cases hf <;> cases hc
  · intro g t f rest a _ hf h
    cases a <;> simp only [Api.frames] <;> (try split) <;>
      simp_all [Shape, Frame.bottom, Frame.cleanup]
  · intro g t rest _ _ h
    exact ⟨by simp [Frame.bottom], by simp [Frame.cleanup], h⟩
  · intro g t rest _ h
    exact ⟨by simp [Frame.bottom], by simp [Frame.cleanup], h⟩
  · intro g t l _ _; exact shape_unwound l
  · intro s t c d rest _ _ _ _ h
    exact ⟨by simp [Frame.bottom], by simp [Frame.cleanup],
      by simp [Frame.bottom], by simp [Frame.cleanup], h.2.2⟩
  · intro s t rest _ _ _ _ h
    exact ⟨by simp [Frame.bottom], by simp [Frame.cleanup], h.2.2⟩

theorem shape_mem {l : List Frame} (hs : Shape l) {f : Frame} (hf : f ∈ l) :
    ∃ a b, l = a ++ f :: b ∧ Shape (f :: b) := by
  induction l with
  | nil => cases hf
  | cons x l ih =>
    rcases List.mem_cons.1 hf with e | hf
    · subst e; exact ⟨[], l, rfl, hs⟩
    · obtain ⟨a, b, e, h⟩ := ih hs.2.2 hf
      exact ⟨x :: a, b, by rw [e]; rfl, h⟩

theorem hasUsed_keep {g g' : G} {t : Tid} {ok : Bool} {v : Nat} {f : Frame} {nx : Next}
    {sp : Option Frame} (hn : f.resetting = false) (h : fstep g t ok v f = some (g', nx, sp))
    (hu : g.hasUsed = true) : g'.hasUsed = true := by
  cases f <;> first | (simp [Frame.resetting] at hn; done) | (fstep_cases h <;> first | exact hu | rfl)

theorem born_keep {g g' : G} {t : Tid} {ok : Bool} {v : Nat} {f : Frame} {nx : Next}
    {sp : Option Frame} (h : fstep g t ok v f = some (g', nx, sp)) (hb : born g.tr = false) :
    born g'.tr = false := by
  cases hb' : born g'.tr with
  | false => rfl
  | true => rw [born_fstep h hb'] at hb'; rw [hb] at hb'; cases hb'

def NodeId.isSlot : NodeId → Bool
  | .slot .. => true
  | .main => false

def Frame.isPc1 : Frame → Bool
  | .pc1 .. => true
  | _ => false

/-- Threads other than the initial one exist only while the thread list is in use. -/
def BaseG (g : G) : Prop :=
  mainOf g.tr < g.nextTid ∧
  (g.hasUsed = false → (∀ n ∈ g.list, n = .main) ∧ g.free = [] ∧
    ∀ u n, g.tsd u = some n → n = .main)

def BaseF (g : G) (u : Tid) (f : Frame) : Prop :=
  (u ≠ mainOf g.tr → g.hasUsed = true ∧ born g.tr = false) ∧
  (f.resetting = true → born g.tr = true) ∧
  (f.making = true → (f.isPc1 = true ∨ g.hasUsed = true) ∧ born g.tr = false) ∧
  (f.thr.isSome = true → u ≠ mainOf g.tr ∨ f.isBtApp = true)

theorem forkOk_base {g : G} {u : Tid} {f : Frame} (h : f.forkOk = true) (hu : u = mainOf g.tr) :
    BaseF g u f := by
  simp only [Frame.forkOk, Bool.and_eq_true, Bool.or_eq_true, Bool.not_eq_true', Option.isNone_iff_eq_none] at h
  obtain ⟨⟨⟨⟨h1, h2⟩, h3⟩, h4⟩, h5⟩ := h
  refine ⟨fun h => absurd hu h, fun h => ?_, fun h => ?_, fun h => ?_⟩
  · rw [h4] at h; cases h
  · rw [h1] at h; cases h
  · rcases h2 with h2 | h2
    · rw [h2] at h; cases h
    · exact Or.inr h2

theorem reset_base {g : G} (hG : g.hasUsed = false → (∀ n ∈ g.list, n = .main) ∧ g.free = [] ∧
    ∀ u n, g.tsd u = some n → n = .main) (t : Tid) (hu : (resetList g t).hasUsed = false) :
    (∀ n ∈ (resetList g t).list, n = .main) ∧ (resetList g t).free = [] ∧
      ∀ u n, (resetList g t).tsd u = some n → n = .main := by
  unfold resetList at hu ⊢
  split
  · exact ⟨by simp, rfl, by simp⟩
  · rename_i h
    rw [if_neg h] at hu
    exact hG hu

theorem base_go {g g' : G} {t : Tid} {ok : Bool} {v : Nat} {f : Frame} {nx : Next}
    {sp : Option Frame} (hG : BaseG g) (hF : BaseF g t f) (hne : f.isBtApp = true → t ≠ mainOf g.tr)
    (h : fstep g t ok v f = some (g', nx, sp)) : BaseG g' := by
  have hm := mainOf_fstep h
  obtain ⟨hG1, hG2⟩ := hG
  refine ⟨?_, ?_⟩
  · rw [hm]
    rcases fstep_spawn h with ⟨_, e⟩ | ⟨_, _, _, e, _⟩ <;> omega
  · clear hm
    obtain ⟨f1, f2, f3, f4⟩ := hF
    intro hu
    cases f <;> fstep_cases h <;>
      first
      | exact hG2 hu
      | (simp only [G.emit, G.upd] at hu; simp_all [Frame.making, Frame.thr, Frame.isBtApp, Frame.isPc1]; done)
      | (simp only [G.emit, G.upd, listInit, resetList] at hu ⊢
         simp_all
         done)
      | skip
    · exact reset_base hG2 t hu
    · obtain ⟨a, b, c⟩ := hG2 hu
      refine ⟨fun n hn => ?_, b, c⟩
      rcases List.mem_cons.1 hn with e | hn
      · exact e
      · exact a n hn
    · exact reset_base hG2 t hu

theorem base_new {g g' : G} {t : Tid} {ok : Bool} {v : Nat} {f : Frame} {l : List Frame}
    {sp : Option Frame} (hF : BaseF g t f) (hne : f.isBtApp = true → t ≠ mainOf g.tr)
    (hb : born g.tr = true → f.resetting = true)
    (h : fstep g t ok v f = some (g', .go l, sp)) {h' : Frame} (hm : h' ∈ l) : BaseF g' t h' := by
  have e := mainOf_fstep h
  obtain ⟨f1, f2, f3, f4⟩ := hF
  refine ⟨?_, ?_, ?_, ?_⟩
  · rw [e]; intro ht
    obtain ⟨a, b⟩ := f1 ht
    refine ⟨hasUsed_keep ?_ h a, born_keep h b⟩
    cases hc : f.resetting with
    | false => rfl
    | true => rw [f2 hc] at b; cases b
  · intro hr
    clear f1 f3 f4 e hne
    cases f <;> fstep_cases h <;>
      simp only [List.mem_cons, List.not_mem_nil, or_false] at hm <;>
      (try (rcases hm with hm | hm)) <;> (try subst hm) <;>
      first
      | (simp [Frame.resetting] at hr; done)
      | (rename_i hi; exact f2 hi)
  · intro hr
    have hnr : f.resetting = false := by
      clear f1 f2 f3 f4 e hne hb
      cases f <;> first | rfl | fstep_cases h
      all_goals simp only [List.mem_cons, List.not_mem_nil, or_false] at hm
      all_goals (try (rcases hm with hm | hm)) <;> (try subst hm) <;> (simp [Frame.making] at hr; done)
    have hb' : born g.tr = false := by
      cases hc : born g.tr with
      | false => rfl
      | true => rw [hb hc] at hnr; cases hnr
    refine ⟨?_, born_keep h hb'⟩
    clear f1 f2 f4 e hne hb
    cases f <;> fstep_cases h <;>
      simp only [List.mem_cons, List.not_mem_nil, or_false] at hm <;>
      (try (rcases hm with hm | hm)) <;> (try subst hm) <;>
      first
      | (simp [Frame.making] at hr; done)
      | exact Or.inl rfl
      | exact Or.inr rfl
      | (rename_i hi; exact Or.inr hi)
      | (have := (f3 rfl).1; simp only [Frame.isPc1] at this; rcases this with this | this
         · cases this
         · exact Or.inr this)
  · rw [e]
    intro hr
    clear f1 f2 f3 e hb
    cases f <;> fstep_cases h <;>
      simp only [List.mem_cons, List.not_mem_nil, or_false] at hm <;>
      (try (rcases hm with hm | hm)) <;> (try subst hm) <;>
      first
      | (simp [Frame.thr] at hr; done)
      | exact Or.inr rfl
      | exact Or.inl (hne rfl)
      | (have := f4 rfl; simp only [Frame.isBtApp] at this; rcases this with this | this
         · exact Or.inl this
         · cases this)
      | skip
    · exact f4 hr
    · rename_i e; subst e; exact f4 rfl

theorem base_unwound {s : S} {t : Tid} {g' : G} (hm : mainOf g'.tr = mainOf s.g.tr)
    (hu : t ≠ mainOf g'.tr → g'.hasUsed = true ∧ born g'.tr = false)
    (hF : ∀ u h, h ∈ s.th u → BaseF s.g u h) {l : List Frame} (hl : ∀ f ∈ l, f ∈ s.th t)
    (ho : orphan s t = false) {h : Frame} (hh : h ∈ unwound l) : BaseF g' t h := by
  have k : h.resetting = false ∧ h.making = false ∧ h.isBtApp = false ∧
      (h.thr.isSome = true → t ≠ mainOf s.g.tr) := by
    rcases unwound_cases l with e | ⟨f, n, hf, ha, e⟩
    · rw [e, List.mem_singleton] at hh; subst hh
      exact ⟨rfl, rfl, rfl, by simp [Frame.thr]⟩
    · rw [e] at hh
      rcases List.mem_cons.1 hh with hh | hh
      · subst hh
        refine ⟨rfl, rfl, rfl, fun _ et => ?_⟩
        have hthr : f.thr.isSome = true := by cases f <;> first | rfl | cases ha
        rcases (hF t f (hl f hf)).2.2.2 hthr with h | h
        · exact h et
        · have : orphan s t = true := by
            simp only [orphan, Bool.and_eq_true, decide_eq_true_eq]
            exact ⟨et, List.any_eq_true.2 ⟨f, hl f hf, h⟩⟩
          rw [ho] at this; cases this
      · rw [List.mem_singleton] at hh; subst hh
        exact ⟨rfl, rfl, rfl, by simp [Frame.thr]⟩
  obtain ⟨k1, k2, k3, k4⟩ := k
  refine ⟨hu, ?_, ?_, ?_⟩
  · rw [k1]; simp
  · rw [k2]; simp
  · rw [hm]; exact fun h => Or.inl (k4 h)

theorem base_inv {s : S} (hs : ReachA Clean s) :
    BaseG s.g ∧ ∀ u f, f ∈ s.th u → BaseF s.g u f := by
  refine frames_invA (GI := BaseG) (FI := BaseF) ?_ ?_ ?_ (fun _ h => h) (fun _ _ _ h => h) ?_ ?_ ?_ ?_ hs
  · exact ⟨by decide, fun _ => ⟨by simp, rfl, by simp⟩⟩
  · exact ⟨fun h => absurd rfl h, by simp [Frame.resetting], by simp [Frame.making], by simp [Frame.thr]⟩
  · intro s t f rest ok v g' nx sp hr hA ht hG hF h
    have hft : f ∈ s.th t := by rw [ht]; exact List.mem_cons_self
    have hFf := hF t f hft
    have hm := mainOf_fstep h
    have horph : ∀ h ∈ s.th t, h.isBtApp = true → t = mainOf s.g.tr → orphan s t = true := by
      intro h hm hb et
      simp only [orphan, Bool.and_eq_true, decide_eq_true_eq]
      exact ⟨et, List.any_eq_true.2 ⟨h, hm, hb⟩⟩
    have hne : f.isBtApp = true → t ≠ mainOf s.g.tr := by
      intro hb et
      have := hA.2 (horph f hft hb et) f (by rw [ht]; rfl)
      rw [this.2.2] at hb; cases hb
    have hbr : born s.g.tr = true → f.resetting = true := fun hb => (birth_step hr ht hb).2.1
    have hkeep : ∀ u h', h' ∈ s.th u → (u = t → h' ∈ rest) → BaseF g' u h' := by
      intro u h' hm' hu
      cases hb : born s.g.tr with
      | true =>
        obtain ⟨b1, b2, b3, b4⟩ := birth_step hr ht hb
        by_cases e : u = t
        · exact forkOk_base (b3 h' (hu e)) (by rw [e, hm]; exact b1)
        · rw [b4 u e] at hm'; cases hm'
      | false =>
        have hres : f.resetting = false := by
          cases hc : f.resetting with
          | false => rfl
          | true => rw [hFf.2.1 hc] at hb; cases hb
        have hb' := born_keep h hb
        have hk := hasUsed_keep hres h
        obtain ⟨f1, f2, f3, f4⟩ := hF u h' hm'
        refine ⟨?_, ?_, ?_, ?_⟩
        · rw [hm]; exact fun e => ⟨hk (f1 e).1, hb'⟩
        · intro e; rw [f2 e] at hb; cases hb
        · intro e
          exact ⟨(f3 e).1.imp id hk, hb'⟩
        · rw [hm]; exact f4
    have hun : t ≠ mainOf g'.tr → g'.hasUsed = true ∧ born g'.tr = false := by
      rw [hm]; intro e
      obtain ⟨a, b⟩ := hFf.1 e
      refine ⟨hasUsed_keep ?_ h a, born_keep h b⟩
      cases hc : f.resetting with
      | false => rfl
      | true => rw [hFf.2.1 hc] at b; cases b
    refine ⟨base_go hG hFf hne h, hkeep, ?_, ?_, ?_, ?_⟩
    · intro e
      subst e
      obtain ⟨f1, f2, f3, f4⟩ := hFf
      have hb' : f.resetting = false := by
        cases f <;> first | rfl | fstep_cases h
      have hb2 : born s.g.tr = false := by
        cases hb : born s.g.tr with
        | false => rfl
        | true => rw [hbr hb] at hb'; cases hb'
      exact ⟨hun, by rw [hb']; simp, fun e => ⟨(f3 e).1.imp id (hasUsed_keep hb' h),
        born_keep h hb2⟩, by rw [hm]; exact f4⟩
    · intro l e h' hm'
      subst e
      exact base_new hFf hne hbr h hm'
    · intro h' e
      have hmk : f.making = true ∧ h'.resetting = false ∧ h'.making = false := by
        clear hA ht hft hFf hm horph hne hbr hkeep hun
        subst e
        cases f <;> fstep_cases h <;> exact ⟨rfl, rfl, rfl⟩
      obtain ⟨hmk, k1, k2⟩ := hmk
      have hp1 : f.isPc1 = false := by
        subst e
        cases f <;> first | rfl | fstep_cases h
      obtain ⟨f1, f2, f3, f4⟩ := hFf
      obtain ⟨a, b⟩ := f3 hmk
      have a : s.g.hasUsed = true := a.resolve_left (by rw [hp1]; simp)
      have hres : f.resetting = false := by
        cases hc : f.resetting with
        | false => rfl
        | true => rw [f2 hc] at b; cases b
      refine ⟨fun _ => ⟨hasUsed_keep hres h a, born_keep h b⟩, by rw [k1]; simp, by rw [k2]; simp,
        fun _ => Or.inl ?_⟩
      rw [hm]
      have := hG.1
      intro e; omega
    · intro e h' hm'
      subst e
      have hpx : f = .px0 ∨ f = .px1 := by
        clear hA ht hft hFf hm horph hne hbr hkeep hun
        cases f <;> fstep_cases h <;> simp
      have ho : orphan s t = false := by
        cases hc : orphan s t with
        | false => rfl
        | true =>
          have := hA.2 hc f (by rw [ht]; rfl)
          rcases hpx with e | e
          · exact absurd e this.1
          · exact absurd e this.2.1
      exact base_unwound hm hun hF (l := rest)
        (fun f hf => by rw [ht]; exact List.mem_cons_of_mem _ hf) ho hm'
  · intro s t i h hr hA hG hne hF _ _ hp _
    obtain ⟨f, hf⟩ := List.exists_mem_of_ne_nil _ hne
    refine ⟨(hF t f hf).1, ?_, ?_, ?_⟩ <;>
      (cases h <;> simp [Frame.pushable, Frame.resetting, Frame.making, Frame.thr] at hp ⊢)
    intro hb; subst hb; simp at hp
  · intro s t hr hA hG hne hF h hm
    obtain ⟨f, hf⟩ := List.exists_mem_of_ne_nil _ hne
    exact base_unwound rfl (hF t f hf).1 hF (fun _ h => h) hA hm
  · intro s t c d rest hr hA ht hG hF
    refine ⟨⟨?_, hG.2⟩, ?_⟩
    · show t < s.g.nextTid
      cases Nat.lt_or_ge t s.g.nextTid with
      | inl h => exact h
      | inr h => have := fresh_inv hr t h; rw [ht] at this; cases this
    · intro h hm
      rcases List.mem_cons.1 hm with e | hm
      · subst e
        exact ⟨fun h => absurd rfl h, fun _ => rfl, by simp [Frame.making], by simp [Frame.thr]⟩
      refine forkOk_base ?_ rfl
      rcases List.mem_cons.1 hm with e | hm
      · subst e; rfl
      · exact hA h (by rw [ht]; exact List.mem_cons_of_mem _ hm)
  · intro s t rest hr hA ht hG hF
    refine ⟨⟨?_, hG.2⟩, ?_⟩
    · show t < s.g.nextTid
      cases Nat.lt_or_ge t s.g.nextTid with
      | inl h => exact h
      | inr h => have := fresh_inv hr t h; rw [ht] at this; cases this
    · intro h hm
      rcases List.mem_cons.1 hm with e | hm
      · subst e
        exact ⟨fun h => absurd rfl h, fun _ => rfl, by simp [Frame.making], by simp [Frame.thr]⟩
      exact forkOk_base (hA h (by rw [ht]; exact List.mem_cons_of_mem _ hm)) rfl

end Libmonitor.Proc
