import Verif.Term.Spec
/-!
# Invariants for C66
-/

namespace Libmonitor.Term

theorem weaken {A : S → Lbl → Prop} {s : S} (hs : ReachA A s) : Reach s := by
  induction hs with
  | init a m => exact .init a m
  | next _ _ hn ih => exact .next ih trivial hn

/-- The transitions. -/
inductive Move (s : S) : Lbl → S → Prop where
  | frame {t ex f rest r} : s.th t = f :: rest → rest ≠ [] → fstep s.g t ex f = some r →
      Move s (.go t ex) (put s t rest r)
  | sigaction {t sg d rest} : s.th t = .app :: rest →
      Move s (.sigaction t sg d)
        { g := { s.g.log t (.sigaction sg d) with appl := fun r => if r = sg then d else s.g.appl r },
          th := setTh s.th t (.sa sg :: .app :: rest) }
  | sigmask {t m rest} : s.th t = .app :: rest → Move s (.sigmask t m) { s with g := s.g.setMask t m }
  | abort {t rest} : s.th t = .app :: rest →
      Move s (.abort t) { g := s.g.log t .abort, th := setTh s.th t (.ab1 :: .app :: rest) }
  | arrive {l t sg ex} : (l = .deliver t sg ex ∨ l = .fault t sg ex) → s.g.mask t sg = false →
      Move s l (put s t (s.th t) (arrive s.g t sg ex))
  | forced {t sg ex} : s.g.mask t sg = true →
      Move s (.fault t sg ex) { s with g := { s.g with dead := some (.signal sg true) } }

theorem move_of_next {s s' : S} {l : Lbl} (h : next s l = some s') :
    s.g.dead = none ∧ Move s l s' := by
  unfold next at h
  split at h
  · simp at h
  · rename_i hd
    refine ⟨by simpa using hd, ?_⟩
    cases l with
    | go t ex =>
      simp only [] at h
      split at h
      · rename_i f rest he
        split at h
        · simp at h
        · rename_i hne
          obtain ⟨r, hr, rfl⟩ := Option.map_eq_some_iff.mp h
          exact .frame he (by simpa using hne) hr
      · simp at h
    | sigaction t sg d =>
      simp only [] at h
      split at h
      · rename_i rest he
        simp only [Option.some.injEq] at h
        subst h; exact .sigaction he
      · simp at h
    | sigmask t m =>
      simp only [] at h
      split at h
      · rename_i rest he
        simp only [Option.some.injEq] at h
        subst h; exact .sigmask he
      · simp at h
    | abort t =>
      simp only [] at h
      split at h
      · rename_i rest he
        simp only [Option.some.injEq] at h
        subst h; exact .abort he
      · simp at h
    | deliver t sg ex =>
      simp only [] at h
      split at h
      · simp at h
      · split at h
        · simp at h
        · rename_i hm
          simp only [Option.some.injEq] at h
          subst h; exact .arrive (.inl rfl) (by simpa using hm)
    | fault t sg ex =>
      simp only [] at h
      split at h
      · simp at h
      · split at h
        · rename_i hm
          simp only [Option.some.injEq] at h
          subst h; exact .forced hm
        · rename_i hm
          simp only [Option.some.injEq] at h
          subst h; exact .arrive (.inr rfl) (by simpa using hm)

@[simp] theorem setTh_self (th : Tid → List Frame) (t : Tid) (l : List Frame) : setTh th t l t = l := by
  simp [setTh]

theorem setTh_other (th : Tid → List Frame) {t u : Tid} (l : List Frame) (h : u ≠ t) :
    setTh th t l u = th u := by
  simp [setTh, h]

/-- What holds of the globals because of a frame. -/
def Frame.Claim (g : G) : Frame → Prop
  | .e0 sg => noterm sg = false ∧ stop sg = false
  | .e1 sg | .e2 sg | .e3 sg => noterm sg = false ∧ stop sg = false ∧ ∃ t, (t, Ev.callbacks sg) ∈ g.tr
  | .ab1 | .ab2 | .ab3 | .ab4 => ∃ t, (t, Ev.abort) ∈ g.tr
  | _ => True

/-- The exit callbacks were due for `sg`, or the client asked to abort. -/
def Due (g : G) (sg : Nat) : Prop :=
  (∃ t, (t, Ev.callbacks sg) ∈ g.tr) ∨ (sg = 6 ∧ ∃ t, (t, Ev.abort) ∈ g.tr)

structure Inv (s : S) : Prop where
  frames : ∀ t, ∀ f ∈ s.th t, f.Claim s.g
  dfl : ∀ sg, s.g.kact sg = .dfl → Due s.g sg
  dead : ∀ sg, s.g.dead = some (.signal sg false) → Due s.g sg ∧ noterm sg = false ∧ stop sg = false

theorem claim_mono {g g' : G} {f : Frame} (h : ∀ e ∈ g.tr, e ∈ g'.tr) (hc : f.Claim g) : f.Claim g' := by
  cases f <;> simp only [Frame.Claim] at hc ⊢ <;> first | exact hc | skip
  all_goals first
    | (obtain ⟨a, b, t, ht⟩ := hc; exact ⟨a, b, t, h _ ht⟩)
    | (obtain ⟨t, ht⟩ := hc; exact ⟨t, h _ ht⟩)

theorem due_mono {g g' : G} {sg : Nat} (h : ∀ e ∈ g.tr, e ∈ g'.tr) (hc : Due g sg) : Due g' sg := by
  rcases hc with ⟨t, ht⟩ | ⟨a, t, ht⟩
  · exact .inl ⟨t, h _ ht⟩
  · exact .inr ⟨a, t, h _ ht⟩

theorem arrive_tr (g : G) (t sg : Nat) (ex : Mask) : (arrive g t sg ex).1.tr = g.tr := by
  unfold arrive; split
  · split <;> rfl
  · rfl

theorem arrive_kact (g : G) (t sg : Nat) (ex : Mask) : (arrive g t sg ex).1.kact = g.kact := by
  unfold arrive; split
  · split <;> rfl
  · rfl

theorem arrive_frames (g : G) (t sg : Nat) (ex : Mask) : ∀ f ∈ (arrive g t sg ex).2,
    f = .hd sg ∨ f = .ret (g.mask t) := by
  intro f hf
  unfold arrive at hf
  split at hf
  · split at hf <;> simp at hf
  · simpa using hf

theorem arrive_dead (g : G) (t sg : Nat) (ex : Mask) (hd : g.dead = none) (r : Nat)
    (h : (arrive g t sg ex).1.dead = some (.signal r false)) : r = sg ∧ g.kact sg = .dfl ∧ noterm sg = false ∧ stop sg = false := by
  unfold arrive at h
  split at h
  · rename_i hk
    split at h
    · rw [hd] at h; simp at h
    · rename_i hn
      simp only [Option.some.injEq, End.signal.injEq] at h
      exact ⟨h.1.symm, hk, by simpa using hn⟩
  · simp only [G.setMask] at h; rw [hd] at h; simp at h

/-- raise keeps the history, adds frames of a handler only, and kills only by a default action. -/
theorem raise_spec (g : G) (t sg : Nat) (ex : Mask) (l : List Frame) (hd : g.dead = none) :
    (raise g t sg ex l).1.tr = (t, Ev.raise sg) :: g.tr ∧ (raise g t sg ex l).1.kact = g.kact ∧
    (∀ f ∈ (raise g t sg ex l).2, f = .hd sg ∨ f = .ret (g.mask t) ∨ f ∈ l) ∧
    (∀ r, (raise g t sg ex l).1.dead = some (.signal r false) →
      r = sg ∧ g.kact sg = .dfl ∧ noterm sg = false ∧ stop sg = false) := by
  unfold raise
  simp only []
  split
  · refine ⟨rfl, rfl, fun f hf => .inr (.inr hf), fun r hr => ?_⟩
    simp only [G.log] at hr; rw [hd] at hr; simp at hr
  · refine ⟨arrive_tr _ _ _ _, arrive_kact _ _ _ _, ?_, ?_⟩
    · intro f hf
      rcases List.mem_append.mp hf with hf | hf
      · rcases arrive_frames _ _ _ _ f hf with h | h
        · exact .inl h
        · exact .inr (.inl h)
      · exact .inr (.inr hf)
    · intro r hr
      exact arrive_dead (g.log t (.raise sg)) t sg ex hd r hr

theorem tr_fstep {g : G} {t : Nat} {ex : Mask} {f : Frame} {r : G × List Frame}
    (h : fstep g t ex f = some r) (hd : g.dead = none) : ∀ e ∈ g.tr, e ∈ r.1.tr := by
  intro e he
  cases f <;> simp only [fstep] at h
  case hd sg =>
    split at h
    · cases h; exact he
    · split at h <;> (cases h; exact he)
    · cases h; exact List.mem_cons_of_mem _ he
  case e3 sg =>
    split at h
    · cases h; exact he
    · cases h; rw [(raise_spec g t sg ex [] hd).1]; exact List.mem_cons_of_mem _ he
  case ab3 =>
    cases h; rw [(raise_spec g t SIGABRT ex [.ab4] hd).1]; exact List.mem_cons_of_mem _ he
  case e0 => cases h; exact List.mem_cons_of_mem _ he
  all_goals cases h; exact he

theorem inv_fstep {g : G} {t : Nat} {ex : Mask} {f : Frame} {r : G × List Frame}
    (h : fstep g t ex f = some r) (hd : g.dead = none) (hc : f.Claim g)
    (hk : ∀ sg, g.kact sg = .dfl → Due g sg) :
    (∀ f' ∈ r.2, f'.Claim r.1) ∧ (∀ sg, r.1.kact sg = .dfl → Due r.1 sg) ∧
    (∀ sg, r.1.dead = some (.signal sg false) → Due r.1 sg ∧ noterm sg = false ∧ stop sg = false) := by
  have nodead : ∀ (g' : G), g'.dead = none → ∀ sg, g'.dead = some (.signal sg false) →
      Due g' sg ∧ noterm sg = false ∧ stop sg = false := by
    intro g' h1 sg h2; rw [h1] at h2; simp at h2
  cases f <;> simp only [fstep] at h
  case app => cases h; exact ⟨by simp, hk, nodead g hd⟩
  case sa sg =>
    cases h
    refine ⟨by simp, ?_, nodead _ hd⟩
    intro r hr
    simp only [G.setAct] at hr
    split at hr
    · simp at hr
    · exact hk r hr
  case hd sg =>
    split at h
    · cases h; exact ⟨by simp, hk, nodead g hd⟩
    · split at h
      · cases h; exact ⟨by simp, hk, nodead g hd⟩
      · rename_i hn
        cases h
        refine ⟨?_, hk, nodead g hd⟩
        simp only [List.mem_singleton, forall_eq, Frame.Claim]
        simpa using hn
    · cases h
      exact ⟨by simp [Frame.Claim], fun sg hs => due_mono (fun e he => List.mem_cons_of_mem _ he) (hk sg hs),
        nodead _ hd⟩
  case ret m => cases h; exact ⟨by simp, hk, nodead _ hd⟩
  case e0 sg =>
    cases h
    refine ⟨?_, fun sg hs => due_mono (fun e he => List.mem_cons_of_mem _ he) (hk sg hs), nodead _ hd⟩
    simp only [List.mem_cons, List.not_mem_nil, or_false, forall_eq_or_imp, forall_eq, Frame.Claim,
      true_and]
    exact ⟨hc.1, hc.2, t, List.mem_cons_self⟩
  case e1 sg =>
    cases h
    refine ⟨by simp only [List.mem_singleton, forall_eq]; exact hc, ?_, nodead _ hd⟩
    intro r hr
    simp only [G.setAct] at hr
    split at hr
    · rename_i e; subst e; exact .inl hc.2.2
    · exact hk r hr
  case e2 sg => cases h; exact ⟨by simp only [List.mem_singleton, forall_eq]; exact hc, hk, nodead _ hd⟩
  case e3 sg =>
    split at h
    · cases h; exact ⟨by simp, hk, nodead _ hd⟩
    · cases h
      obtain ⟨h1, h2, h3, h4⟩ := raise_spec g t sg ex [] hd
      have hm : ∀ e ∈ g.tr, e ∈ (raise g t sg ex []).1.tr := by
        rw [h1]; exact fun e he => List.mem_cons_of_mem _ he
      refine ⟨?_, ?_, ?_⟩
      · intro f hf
        rcases h3 f hf with rfl | rfl | hf
        · trivial
        · trivial
        · simp at hf
      · intro r hr; rw [h2] at hr; exact due_mono hm (hk r hr)
      · intro r hr
        obtain ⟨rfl, hr', hx⟩ := h4 r hr
        exact ⟨due_mono hm (hk r hr'), hx⟩
  case ab1 =>
    cases h
    refine ⟨by simp only [List.mem_singleton, forall_eq]; exact hc, ?_, nodead _ hd⟩
    intro r hr
    simp only [G.setAct] at hr
    split at hr
    · rename_i e; exact .inr ⟨e, hc⟩
    · exact hk r hr
  case ab2 => cases h; exact ⟨by simp only [List.mem_singleton, forall_eq]; exact hc, hk, nodead _ hd⟩
  case ab3 =>
    cases h
    obtain ⟨h1, h2, h3, h4⟩ := raise_spec g t SIGABRT ex [.ab4] hd
    have hm : ∀ e ∈ g.tr, e ∈ (raise g t SIGABRT ex [.ab4]).1.tr := by
      rw [h1]; exact fun e he => List.mem_cons_of_mem _ he
    refine ⟨?_, ?_, ?_⟩
    · intro f hf
      rcases h3 f hf with rfl | rfl | hf
      · trivial
      · trivial
      · simp only [List.mem_singleton] at hf
        subst hf
        obtain ⟨u, hu⟩ := hc
        exact ⟨u, hm _ hu⟩
    · intro r hr; rw [h2] at hr; exact due_mono hm (hk r hr)
    · intro r hr
      obtain ⟨rfl, hr', hx⟩ := h4 r hr
      exact ⟨due_mono hm (hk _ hr'), hx⟩
  case ab4 =>
    cases h
    exact ⟨by simp, hk, by intro sg h; simp at h⟩

theorem inv {A : S → Lbl → Prop} {s : S} (hs : ReachA A s) : Inv s := by
  induction hs with
  | init => exact ⟨by simp [Frame.Claim], by simp, by simp⟩
  | @next s0 s' l hr ha hn ih =>
    obtain ⟨hd, hm⟩ := move_of_next hn
    cases hm with
    | @frame t ex f rest r he hne hf =>
      have hc := ih.frames t f (by simp [he])
      obtain ⟨h1, h2, h3⟩ := inv_fstep hf hd hc ih.dfl
      have hmono := tr_fstep hf hd
      refine ⟨?_, h2, h3⟩
      intro u f' hf'
      by_cases hu : u = t
      · subst hu
        simp only [put, setTh_self] at hf'
        rcases List.mem_append.mp hf' with hf' | hf'
        · exact h1 f' hf'
        · exact claim_mono hmono (ih.frames u f' (by rw [he]; exact List.mem_cons_of_mem _ hf'))
      · simp only [put, setTh_other _ _ hu] at hf'
        exact claim_mono hmono (ih.frames u f' hf')
    | @sigaction t sg d rest he =>
      have hmono : ∀ e ∈ s0.g.tr, e ∈ (t, Ev.sigaction sg d) :: s0.g.tr := fun e he => List.mem_cons_of_mem _ he
      refine ⟨?_, fun r hr => due_mono hmono (ih.dfl r hr), 
        fun r hr => ⟨due_mono hmono (ih.dead r hr).1, (ih.dead r hr).2⟩⟩
      intro u f' hf'
      by_cases hu : u = t
      · subst hu
        simp only [setTh_self, List.mem_cons] at hf'
        rcases hf' with rfl | rfl | hf'
        · trivial
        · trivial
        · exact claim_mono hmono (ih.frames u f' (by rw [he]; exact List.mem_cons_of_mem _ hf'))
      · simp only [setTh_other _ _ hu] at hf'
        exact claim_mono hmono (ih.frames u f' hf')
    | @sigmask t m rest he =>
      exact ⟨fun u f hf => claim_mono (g' := _) (fun e h => h) (ih.frames u f hf), ih.dfl, ih.dead⟩
    | @abort t rest he =>
      have hmono : ∀ e ∈ s0.g.tr, e ∈ (t, Ev.abort) :: s0.g.tr := fun e he => List.mem_cons_of_mem _ he
      refine ⟨?_, fun r hr => due_mono hmono (ih.dfl r hr), 
        fun r hr => ⟨due_mono hmono (ih.dead r hr).1, (ih.dead r hr).2⟩⟩
      intro u f' hf'
      by_cases hu : u = t
      · subst hu
        simp only [setTh_self, List.mem_cons] at hf'
        rcases hf' with rfl | rfl | hf'
        · exact ⟨u, List.mem_cons_self⟩
        · trivial
        · exact claim_mono hmono (ih.frames u f' (by rw [he]; exact List.mem_cons_of_mem _ hf'))
      · simp only [setTh_other _ _ hu] at hf'
        exact claim_mono hmono (ih.frames u f' hf')
    | @arrive l t sg ex hl hmk =>
      have htr := arrive_tr s0.g t sg ex
      have hmono : ∀ e ∈ s0.g.tr, e ∈ (arrive s0.g t sg ex).1.tr := by rw [htr]; exact fun e h => h
      refine ⟨?_, ?_, ?_⟩
      · intro u f' hf'
        by_cases hu : u = t
        · subst hu
          simp only [put, setTh_self] at hf'
          rcases List.mem_append.mp hf' with hf' | hf'
          · rcases arrive_frames _ _ _ _ f' hf' with rfl | rfl <;> trivial
          · exact claim_mono hmono (ih.frames u f' hf')
        · simp only [put, setTh_other _ _ hu] at hf'
          exact claim_mono hmono (ih.frames u f' hf')
      · intro r hr
        simp only [put, arrive_kact] at hr
        exact due_mono hmono (ih.dfl r hr)
      · intro r hr
        obtain ⟨rfl, hk, hx⟩ := arrive_dead _ _ _ _ hd r hr
        exact ⟨due_mono hmono (ih.dfl _ hk), hx⟩
    | @forced t sg ex hmk =>
      exact ⟨fun u f hf => claim_mono (g' := _) (fun e h => h) (ih.frames u f hf), ih.dfl, by
        intro r hr; simp at hr⟩

theorem cb_fstep {g : G} {t : Nat} {ex : Mask} {f : Frame} {r : G × List Frame}
    (h : fstep g t ex f = some r) (hd : g.dead = none) (hc : f.Claim g) :
    ∀ u sg, (u, Ev.callbacks sg) ∈ r.1.tr →
      (u, Ev.callbacks sg) ∈ g.tr ∨ (noterm sg = false ∧ stop sg = false) := by
  intro u sg' hu
  cases f <;> simp only [fstep] at h
  case hd sg =>
    split at h
    · cases h; exact .inl hu
    · split at h <;> (cases h; exact .inl hu)
    · cases h; exact .inl (by simpa [G.log] using hu)
  case e3 sg =>
    split at h
    · cases h; exact .inl hu
    · cases h; rw [(raise_spec g t sg ex [] hd).1] at hu; exact .inl (by simpa using hu)
  case ab3 =>
    cases h; rw [(raise_spec g t SIGABRT ex [.ab4] hd).1] at hu; exact .inl (by simpa using hu)
  case e0 sg =>
    cases h
    simp only [G.log, List.mem_cons, Prod.mk.injEq, Ev.callbacks.injEq] at hu
    rcases hu with ⟨-, rfl⟩ | hu
    · exact .inr hc
    · exact .inl hu
  all_goals cases h; exact .inl hu

theorem callbacks_deadly {A : S → Lbl → Prop} {s : S} (hs : ReachA A s) : ∀ t sg,
    (t, Ev.callbacks sg) ∈ s.g.tr → noterm sg = false ∧ stop sg = false := by
  induction hs with
  | init => intro t sg h; simp at h
  | @next s0 s' l hr ha hn ih =>
    obtain ⟨hd, hm⟩ := move_of_next hn
    intro u sg hu
    cases hm with
    | @frame t ex f rest r he hne hf =>
      rcases cb_fstep hf hd ((inv hr).frames t f (by simp [he])) u sg hu with h | h
      · exact ih u sg h
      · exact h
    | @sigaction t sg' d rest he => exact ih u sg (by simpa [G.log] using hu)
    | @sigmask t m rest he => exact ih u sg hu
    | @abort t rest he => exact ih u sg (by simpa [G.log] using hu)
    | @arrive l t sg' ex hl hmk => exact ih u sg (by simpa [put, arrive_tr] using hu)
    | @forced t sg' ex hmk => exact ih u sg hu

/-! ### The mask at raise -/

/-- The signal a frame is about to raise. -/
def Frame.need : Frame → Option Nat
  | .e3 sg => some sg
  | .ab3 => some 6
  | _ => none

/-- With mask `m` now: what the frames are about to raise is not blocked when they go on. -/
def MaskOk (m : Mask) : List Frame → Prop
  | [] => True
  | f :: l => (∀ sg, f.need = some sg → m sg = false) ∧
    match f with
    | .ret m' => MaskOk m' l
    | _ => (∀ f' ∈ l.head?, f'.need = none) ∧ MaskOk m l

theorem maskOk_any {m m' : Mask} {l : List Frame} (hn : ∀ f ∈ l.head?, f.need = none)
    (h : MaskOk m l) : MaskOk m' l := by
  induction l with
  | nil => trivial
  | cons f l ih =>
    have h0 : f.need = none := hn f (by simp)
    refine ⟨by simp [h0], ?_⟩
    have h2 := h.2
    cases f <;> first | exact h2 | exact ⟨h2.1, ih h2.1 h2.2⟩

theorem maskOk_push {m : Mask} {f : Frame} {l : List Frame} (hf : f.need = none)
    (hr : ∀ m', f ≠ .ret m') (hn : ∀ f ∈ l.head?, f.need = none) (h : MaskOk m l) : MaskOk m (f :: l) := by
  refine ⟨by simp [hf], ?_⟩
  cases f <;> first | exact ⟨hn, h⟩ | exact absurd rfl (hr _)

theorem maskOk_pop {m : Mask} {f : Frame} {l : List Frame} (hr : ∀ m', f ≠ .ret m')
    (h : MaskOk m (f :: l)) : (∀ f ∈ l.head?, f.need = none) ∧ MaskOk m l := by
  have h2 := h.2
  cases f <;> first | exact h2 | exact absurd rfl (hr _)

theorem maskOk_handler {m m' : Mask} {sg : Nat} {l : List Frame} (h : MaskOk m l) :
    MaskOk m' (.hd sg :: .ret m :: l) :=
  ⟨by simp [Frame.need], by simp [Frame.need], by simp [Frame.need], h⟩

theorem arrive_mask {g : G} {t sg : Nat} {ex : Mask} {l : List Frame} (h : MaskOk (g.mask t) l) :
    MaskOk ((arrive g t sg ex).1.mask t) ((arrive g t sg ex).2 ++ l) := by
  unfold arrive
  split
  · split <;> exact h
  · exact maskOk_handler h

theorem arrive_mask_other {g : G} {t sg u : Nat} {ex : Mask} (hu : u ≠ t) :
    (arrive g t sg ex).1.mask u = g.mask u := by
  unfold arrive
  split
  · split <;> rfl
  · simp [G.setMask, hu]

theorem mask_fstep {g : G} {t : Nat} {ex : Mask} {f : Frame} {r : G × List Frame} {l : List Frame}
    (h : fstep g t ex f = some r) (hm : MaskOk (g.mask t) (f :: l)) :
    MaskOk (r.1.mask t) (r.2 ++ l) ∧ ∀ u, u ≠ t → r.1.mask u = g.mask u := by
  cases f <;> simp only [fstep] at h
  case ret m =>
    cases h
    refine ⟨?_, fun u hu => by simp [G.setMask, hu]⟩
    simpa [G.setMask] using hm.2
  all_goals have hp := maskOk_pop (by simp) hm
  case app => cases h; exact ⟨hp.2, fun _ _ => rfl⟩
  case sa sg => cases h; exact ⟨hp.2, fun _ _ => rfl⟩
  case hd sg =>
    split at h
    · cases h; exact ⟨hp.2, fun _ _ => rfl⟩
    · split at h
      · cases h; exact ⟨hp.2, fun _ _ => rfl⟩
      · cases h; exact ⟨maskOk_push rfl (by simp) hp.1 hp.2, fun _ _ => rfl⟩
    · cases h; exact ⟨maskOk_push rfl (by simp) hp.1 hp.2, fun _ _ => rfl⟩
  case e0 sg =>
    cases h
    exact ⟨maskOk_push rfl (by simp) (by simp [Frame.need]) (maskOk_push rfl (by simp) hp.1 hp.2),
      fun _ _ => rfl⟩
  case e1 sg => cases h; exact ⟨maskOk_push rfl (by simp) hp.1 hp.2, fun _ _ => rfl⟩
  case e2 sg =>
    cases h
    refine ⟨?_, fun u hu => by simp [G.setMask, hu]⟩
    simp only [G.setMask, ↓reduceIte]
    exact ⟨fun _ _ => rfl, hp.1, maskOk_any hp.1 hp.2⟩
  case ab1 => cases h; exact ⟨maskOk_push rfl (by simp) hp.1 hp.2, fun _ _ => rfl⟩
  case ab2 =>
    cases h
    refine ⟨?_, fun u hu => by simp [G.setMask, hu]⟩
    simp only [G.setMask, ↓reduceIte]
    exact ⟨fun _ _ => rfl, hp.1, maskOk_any hp.1 hp.2⟩
  case ab4 => cases h; exact ⟨hp.2, fun _ _ => rfl⟩
  case e3 sg =>
    split at h
    · cases h; exact ⟨hp.2, fun _ _ => rfl⟩
    · cases h
      unfold raise
      simp only []
      split
      · exact ⟨hp.2, fun _ _ => rfl⟩
      · refine ⟨?_, fun u hu => by rw [arrive_mask_other hu]; rfl⟩
        rw [List.append_nil]
        exact arrive_mask (g := g.log t (.raise sg)) hp.2
  case ab3 =>
    cases h
    have h4 : MaskOk (g.mask t) (.ab4 :: l) := maskOk_push rfl (by simp) hp.1 hp.2
    unfold raise
    simp only []
    split
    · exact ⟨h4, fun _ _ => rfl⟩
    · refine ⟨?_, fun u hu => by rw [arrive_mask_other hu]; rfl⟩
      rw [List.append_assoc]
      exact arrive_mask (g := g.log t (.raise SIGABRT)) h4

theorem mask_inv {A : S → Lbl → Prop} {s : S} (hs : ReachA A s) : ∀ t, MaskOk (s.g.mask t) (s.th t) := by
  induction hs with
  | init => intro t; exact ⟨by simp [Frame.need], by simp, trivial⟩
  | @next s0 s' l hr ha hn ih =>
    obtain ⟨-, hm⟩ := move_of_next hn
    intro u
    cases hm with
    | @frame t ex f rest r he hne hf =>
      obtain ⟨h1, h2⟩ := mask_fstep hf (he ▸ ih t)
      by_cases hu : u = t
      · subst hu; simp only [put, setTh_self]; exact h1
      · simp only [put, setTh_other _ _ hu, h2 u hu]; exact ih u
    | @sigaction t sg d rest he =>
      by_cases hu : u = t
      · subst hu
        simp only [setTh_self]
        exact maskOk_push rfl (by simp) (by simp [Frame.need]) (he ▸ ih u)
      · simp only [setTh_other _ _ hu]; exact ih u
    | @sigmask t m rest he =>
      by_cases hu : u = t
      · subst hu
        have := ih u
        rw [he] at this ⊢
        exact maskOk_any (by simp [Frame.need]) this
      · simp only [G.setMask, hu, ↓reduceIte]; exact ih u
    | @abort t rest he =>
      by_cases hu : u = t
      · subst hu
        simp only [setTh_self]
        exact maskOk_push rfl (by simp) (by simp [Frame.need]) (he ▸ ih u)
      · simp only [setTh_other _ _ hu]; exact ih u
    | @arrive l t sg ex hl hmk =>
      by_cases hu : u = t
      · subst hu; simp only [put, setTh_self]; exact arrive_mask (ih u)
      · simp only [put, setTh_other _ _ hu, arrive_mask_other hu]; exact ih u
    | @forced t sg ex hmk => exact ih u

/-! ### The default action stays installed -/

theorem kact_fstep {g : G} {t : Nat} {ex : Mask} {f : Frame} {r : G × List Frame}
    (h : fstep g t ex f = some r) (hd : g.dead = none) :
    (∀ sg, g.kact sg = .dfl → f ≠ .sa sg → r.1.kact sg = .dfl) ∧
    (∀ f' ∈ r.2, ∀ sg, f'.ending sg = true → r.1.kact sg = .dfl ∨ f.ending sg = true) := by
  cases f <;> simp only [fstep] at h
  case sa sg =>
    cases h
    refine ⟨?_, by simp⟩
    intro r hr hne
    simp only [G.setAct]
    split
    · rename_i e; subst e; exact absurd rfl hne
    · exact hr
  case hd sg =>
    split at h
    · cases h; exact ⟨fun _ h _ => h, by simp⟩
    · split at h
      · cases h; exact ⟨fun _ h _ => h, by simp⟩
      · cases h; exact ⟨fun _ h _ => h, by simp [Frame.ending]⟩
    · cases h; exact ⟨fun _ h _ => h, by simp [Frame.ending]⟩
  case app => cases h; exact ⟨fun _ h _ => h, by simp⟩
  case ret m => cases h; exact ⟨fun _ h _ => h, by simp⟩
  case e0 sg => cases h; exact ⟨fun _ h _ => h, by simp [Frame.ending]⟩
  case e1 sg =>
    cases h
    refine ⟨?_, ?_⟩
    · intro r hr _; simp only [G.setAct]; split
      · rfl
      · exact hr
    · simp only [List.mem_singleton, forall_eq, Frame.ending, beq_iff_eq]
      intro r hr; subst hr; left; simp [G.setAct]
  case e2 sg =>
    cases h
    refine ⟨fun _ h _ => h, ?_⟩
    simp only [List.mem_singleton, forall_eq]
    intro r hr; exact .inr hr
  case e3 sg =>
    split at h
    · cases h; exact ⟨fun _ h _ => h, by simp⟩
    · cases h
      obtain ⟨-, h2, h3, -⟩ := raise_spec g t sg ex [] hd
      refine ⟨fun r hr _ => by rw [h2]; exact hr, ?_⟩
      intro f hf
      rcases h3 f hf with rfl | rfl | hf
      · simp [Frame.ending]
      · simp [Frame.ending]
      · simp at hf
  case ab1 =>
    cases h
    refine ⟨?_, ?_⟩
    · intro r hr _; simp only [G.setAct]; split
      · rfl
      · exact hr
    · simp [Frame.ending, G.setAct, SIGABRT]
  case ab2 =>
    cases h
    refine ⟨fun _ h _ => h, ?_⟩
    simp only [List.mem_singleton, forall_eq]
    intro r hr; exact .inr hr
  case ab3 =>
    cases h
    obtain ⟨-, h2, h3, -⟩ := raise_spec g t SIGABRT ex [.ab4] hd
    refine ⟨fun r hr _ => by rw [h2]; exact hr, ?_⟩
    intro f hf
    rcases h3 f hf with rfl | rfl | hf
    · simp [Frame.ending]
    · simp [Frame.ending]
    · simp only [List.mem_singleton] at hf; subst hf; simp [Frame.ending]
  case ab4 => cases h; exact ⟨fun _ h _ => h, by simp⟩

theorem dfl_inv {s : S} (hs : ReachA Calm s) :
    ∀ t, ∀ f ∈ s.th t, ∀ sg, f.ending sg = true → s.g.kact sg = .dfl := by
  induction hs with
  | init => intro t f hf sg h; simp only [List.mem_singleton] at hf; subst hf; simp [Frame.ending] at h
  | @next s0 s' l hr ha hn ih =>
    obtain ⟨hd, hm⟩ := move_of_next hn
    intro u f' hf' sg hsg
    cases hm with
    | @frame t ex f rest r he hne hf =>
      obtain ⟨h1, h2⟩ := kact_fstep hf hd
      have keep : (∃ v, ∃ f0 ∈ s0.th v, f0.ending sg = true) → r.1.kact sg = .dfl := by
        rintro ⟨v, f0, hf0, he0⟩
        refine h1 sg (ih v f0 hf0 sg he0) ?_
        rintro rfl
        have := ha sg rest he v f0 hf0
        rw [he0] at this; simp at this
      by_cases hu : u = t
      · subst hu
        simp only [put, setTh_self] at hf'
        rcases List.mem_append.mp hf' with hf' | hf'
        · rcases h2 f' hf' sg hsg with h | h
          · exact h
          · exact keep ⟨u, f, by simp [he], h⟩
        · exact keep ⟨u, f', by rw [he]; exact List.mem_cons_of_mem _ hf', hsg⟩
      · simp only [put, setTh_other _ _ hu] at hf'
        exact keep ⟨u, f', hf', hsg⟩
    | @sigaction t sg' d rest he =>
      by_cases hu : u = t
      · subst hu
        simp only [setTh_self, List.mem_cons] at hf'
        rcases hf' with rfl | rfl | hf'
        · simp [Frame.ending] at hsg
        · simp [Frame.ending] at hsg
        · exact ih u f' (by rw [he]; exact List.mem_cons_of_mem _ hf') sg hsg
      · simp only [setTh_other _ _ hu] at hf'; exact ih u f' hf' sg hsg
    | @sigmask t m rest he => exact ih u f' hf' sg hsg
    | @abort t rest he =>
      by_cases hu : u = t
      · subst hu
        simp only [setTh_self, List.mem_cons] at hf'
        rcases hf' with rfl | rfl | hf'
        · simp [Frame.ending] at hsg
        · simp [Frame.ending] at hsg
        · exact ih u f' (by rw [he]; exact List.mem_cons_of_mem _ hf') sg hsg
      · simp only [setTh_other _ _ hu] at hf'; exact ih u f' hf' sg hsg
    | @arrive l t sg' ex hl hmk =>
      simp only [put, arrive_kact]
      by_cases hu : u = t
      · subst hu
        simp only [put, setTh_self] at hf'
        rcases List.mem_append.mp hf' with hf' | hf'
        · rcases arrive_frames _ _ _ _ f' hf' with rfl | rfl <;> simp [Frame.ending] at hsg
        · exact ih u f' hf' sg hsg
      · simp only [put, setTh_other _ _ hu] at hf'; exact ih u f' hf' sg hsg
    | @forced t sg' ex hmk => exact ih u f' hf' sg hsg

/-! ### monitor_real_abort does not return -/

theorem abort_fstep {g : G} {t : Nat} {ex : Mask} {f : Frame} {r : G × List Frame}
    (h : fstep g t ex f = some r) (hf : f.aborting = true) :
    r.1.dead.isSome = true ∨ ∃ f' ∈ r.2, f'.aborting = true := by
  cases f <;> simp only [Frame.aborting, Bool.false_eq_true] at hf <;> simp only [fstep] at h <;> cases h
  · exact .inr ⟨_, List.mem_singleton.mpr rfl, rfl⟩
  · exact .inr ⟨_, List.mem_singleton.mpr rfl, rfl⟩
  · right
    refine ⟨.ab4, ?_, rfl⟩
    unfold raise
    simp only []
    split <;> simp
  · exact .inl rfl

theorem new_fstep {g : G} {t : Nat} {ex : Mask} {f : Frame} {r : G × List Frame}
    (h : fstep g t ex f = some r) (hd : g.dead = none) : ∀ u, (u, Ev.abort) ∈ r.1.tr → (u, Ev.abort) ∈ g.tr := by
  intro u hu
  cases f <;> simp only [fstep] at h
  case hd sg =>
    split at h
    · cases h; exact hu
    · split at h <;> (cases h; exact hu)
    · cases h; simpa [G.log] using hu
  case e3 sg =>
    split at h
    · cases h; exact hu
    · cases h; rw [(raise_spec g t sg ex [] hd).1] at hu; simpa using hu
  case ab3 =>
    cases h; rw [(raise_spec g t SIGABRT ex [.ab4] hd).1] at hu; simpa using hu
  case e0 => cases h; simpa [G.log] using hu
  all_goals cases h; exact hu

theorem abort_inv {A : S → Lbl → Prop} {s : S} (hs : ReachA A s) : ∀ t, (t, Ev.abort) ∈ s.g.tr →
    s.g.dead.isSome = true ∨ ∃ f ∈ s.th t, f.aborting = true := by
  induction hs with
  | init => intro t h; simp at h
  | @next s0 s' l hr ha hn ih =>
    obtain ⟨hd, hm⟩ := move_of_next hn
    have old : ∀ u, (u, Ev.abort) ∈ s0.g.tr → ∃ f ∈ s0.th u, f.aborting = true := by
      intro u hu
      rcases ih u hu with h | h
      · rw [hd] at h; simp at h
      · exact h
    intro u hu
    cases hm with
    | @frame t ex f rest r he hne hf =>
      obtain ⟨f0, hf0, ha0⟩ := old u (new_fstep hf hd u hu)
      by_cases hut : u = t
      · subst hut
        rw [he] at hf0
        simp only [put, setTh_self]
        rcases List.mem_cons.mp hf0 with rfl | hf0
        · rcases abort_fstep hf ha0 with h | ⟨f', h1, h2⟩
          · exact .inl h
          · exact .inr ⟨f', List.mem_append_left _ h1, h2⟩
        · exact .inr ⟨f0, List.mem_append_right _ hf0, ha0⟩
      · simp only [put, setTh_other _ _ hut]
        exact .inr ⟨f0, hf0, ha0⟩
    | @sigaction t sg d rest he =>
      obtain ⟨f0, hf0, ha0⟩ := old u (by simpa [G.log] using hu)
      right
      by_cases hut : u = t
      · subst hut
        rw [he] at hf0
        simp only [setTh_self]
        exact ⟨f0, List.mem_cons_of_mem _ hf0, ha0⟩
      · simp only [setTh_other _ _ hut]; exact ⟨f0, hf0, ha0⟩
    | @sigmask t m rest he => exact .inr (old u hu)
    | @abort t rest he =>
      right
      by_cases hut : u = t
      · subst hut; simp only [setTh_self]; exact ⟨.ab1, List.mem_cons_self, rfl⟩
      · simp only [setTh_other _ _ hut]
        refine old u ?_
        simp only [G.log, List.mem_cons, Prod.mk.injEq] at hu
        rcases hu with ⟨h, -⟩ | hu
        · exact absurd h hut
        · exact hu
    | @arrive l t sg ex hl hmk =>
      obtain ⟨f0, hf0, ha0⟩ := old u (by simpa [put, arrive_tr] using hu)
      right
      by_cases hut : u = t
      · subst hut; simp only [put, setTh_self]; exact ⟨f0, List.mem_append_right _ hf0, ha0⟩
      · simp only [put, setTh_other _ _ hut]; exact ⟨f0, hf0, ha0⟩
    | @forced t sg ex hmk => exact .inl rfl

/-- Below everything lies the code of the thread. -/
theorem bottom {A : S → Lbl → Prop} {s : S} (hs : ReachA A s) : ∀ t, (s.th t).getLast? = some .app := by
  have tail : ∀ (f : Frame) (l : List Frame), l ≠ [] → (f :: l).getLast? = l.getLast? := by
    intro f l hl; cases l <;> simp_all
  have app : ∀ (k l : List Frame), l ≠ [] → (k ++ l).getLast? = l.getLast? := by
    intro k l hl
    rw [List.getLast?_append]
    cases hx : l.getLast? with
    | none => simp at hx; exact absurd hx hl
    | some x => rfl
  induction hs with
  | init => intro t; rfl
  | @next s0 s' l hr ha hn ih =>
    obtain ⟨-, hm⟩ := move_of_next hn
    have ne : ∀ t, s0.th t ≠ [] := by intro t h; have := ih t; rw [h] at this; simp at this
    intro u
    cases hm with
    | @frame t ex f rest r he hne hf =>
      by_cases hu : u = t
      · subst hu
        have := ih u
        rw [he, tail _ _ hne] at this
        simp only [put, setTh_self, app _ _ hne, this]
      · simp only [put, setTh_other _ _ hu]; exact ih u
    | @sigaction t sg d rest he =>
      by_cases hu : u = t
      · subst hu
        simp only [setTh_self]
        rw [tail _ _ (by simp), ← he]; exact ih u
      · simp only [setTh_other _ _ hu]; exact ih u
    | @sigmask t m rest he => exact ih u
    | @abort t rest he =>
      by_cases hu : u = t
      · subst hu
        simp only [setTh_self]
        rw [tail _ _ (by simp), ← he]; exact ih u
      · simp only [setTh_other _ _ hu]; exact ih u
    | @arrive l t sg ex hl hmk =>
      by_cases hu : u = t
      · subst hu; simp only [put, setTh_self, app _ _ (ne u)]; exact ih u
      · simp only [put, setTh_other _ _ hu]; exact ih u
    | @forced t sg ex hmk => exact ih u

/-- A call that is not the code of the thread can go on. -/
theorem enabled {A : S → Lbl → Prop} {s : S} (hs : ReachA A s) {t : Tid} {ex : Mask} {f : Frame}
    {rest : List Frame} {r : G × List Frame} (hd : s.g.dead = none) (he : s.th t = f :: rest)
    (hf : f ≠ .app) (hr : fstep s.g t ex f = some r) : next s (.go t ex) = some (put s t rest r) := by
  have hne : rest ≠ [] := by
    rintro rfl
    have := bottom hs t
    rw [he] at this
    simp at this
    exact hf this
  cases rest with
  | nil => exact absurd rfl hne
  | cons a l => simp [next, hd, he, hr]

end Libmonitor.Term
