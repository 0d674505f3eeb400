import Verif.Once.Calm

/-!
# Invariants for C83: when the first initialisation is over
-/

namespace Libmonitor.Once

/-- Which flags are set for sure. -/
def flags : P → Guard → Bool
  | some (p, k), .normal =>
    [.n2, .l2, .l3, .p1, .p2, .p3, .p4, .p5].contains p || k.contains .n2 || k.contains .p4
  | some (p, k), .lib => [.l2, .l3].contains p || k.contains .l2
  | _, _ => false

structure FlagI (s : S) : Prop where
  pc : ∀ c x, flags (s.pc c) x = true → s.run x = true
  ev : ∀ c, Ev.fin .lib c ∈ s.tr → ∀ x, x ≠ .early → s.run x = true

theorem flagI_same {s s' : S} (h : FlagI s) (h1 : ∀ x, s.run x = true → s'.run x = true)
    (h2 : ∀ d x, flags (s'.pc d) x = true → flags (s.pc d) x = true)
    (h3 : ∀ d, Ev.fin .lib d ∈ s'.tr → Ev.fin .lib d ∈ s.tr) : FlagI s' :=
  ⟨fun c x k => h1 x (h.pc c x (h2 c x k)), fun c k x hx => h1 x (h.ev c (h3 c k) x hx)⟩

theorem flag_cstep {s : S} (h : FlagI s) {t : Tid} {c : Call} {rest : List Slot} {v : Data}
    {p : Step} {k : List Ret} (hp : s.pc c = some (p, k)) (hs : shape (some (p, k)) = true) :
    FlagI (cstep s t c rest v k p) := by
  have hc : ∀ x, flags (some (p, k)) x = true → s.run x = true := fun x hx => h.pc c x (by rw [hp]; exact hx)
  have mk : ∀ {s' : S} {q : P}, (∀ x, s.run x = true → s'.run x = true) → s'.pc = upd s.pc c q →
      (∀ x, flags q x = true → s'.run x = true) →
      (∀ d, Ev.fin .lib d ∈ s'.tr → Ev.fin .lib d ∈ s.tr ∨ p = .l3) → FlagI s' := by
    intro s' q h1 h2 h3 h4
    refine ⟨fun d x hd => ?_, fun d hd x hx => ?_⟩
    · rw [h2] at hd
      by_cases e : d = c
      · rw [e, upd_self] at hd; exact h3 x hd
      · rw [upd_ne e] at hd; exact h1 x (h.pc d x hd)
    · refine h1 x ?_
      rcases h4 d hd with e | rfl
      · exact h.ev d e x hx
      · cases x with
        | early => exact absurd rfl hx
        | normal => exact hc _ rfl
        | lib => exact hc _ rfl
  have hret : ∀ y, (p = .test y ∧ s.run y = true) ∨ p = .e2 ∨ p = .n2 ∨ p = .l3 ∨ p = .p1 ∨ p = .p5 →
      (∀ x, flags (retP k) x = true → s.run x = true) := by
    intro y hy x
    rcases hy with ⟨rfl, hy⟩ | rfl | rfl | rfl | rfl | rfl <;> (try cases y) <;>
      simp only [shape, List.contains_cons, List.contains_nil, Bool.or_false, Bool.or_eq_true, beq_iff_eq] at hs <;>
      (first
        | (rcases hs with rfl | rfl | rfl | rfl | rfl)
        | (rcases hs with rfl | rfl | rfl | rfl)
        | (rcases hs with rfl | rfl)
        | (subst hs)) <;>
      cases x <;> first | exact fun _ => hy | exact fun _ => hc _ rfl | exact fun h => by cases h
  cases p with
  | test x =>
    simp only [cstep]
    split
    · rename_i hx
      exact mk (q := retP k) (by simp) (by simp) (by simpa using hret x (.inl ⟨rfl, hx⟩)) (by simp)
    · refine mk (q := some (.set x, k)) (fun _ h => h) rfl (fun y hy => hc y ?_) fun _ h => .inl h
      cases y <;> first | exact hy | (simp [flags] at hy ⊢; done) | (simp [flags] at hy ⊢; exact hy)
  | set x =>
    have hm : ∀ y, s.run y = true → (cstep s t c rest v k (.set x)).run y = true := fun y hy => by
      simp [cstep, hy]
    refine mk (q := some (body x k)) hm rfl (fun y hy => ?_) (by simp [cstep])
    by_cases e : y = x
    · simp [cstep, e]
    · refine hm y (hc y ?_)
      cases x <;> cases y <;> first | exact absurd rfl e | exact hy | (simp [flags, body] at hy ⊢; exact hy) | (simp [flags, body] at hy; done)
  | e1 =>
    refine mk (q := some (.e2, k)) (fun _ h => h) rfl (fun y hy => hc y ?_) fun _ h => .inl h
    cases y <;> first | exact hy | (simp [flags] at hy ⊢; done) | (simp [flags] at hy ⊢; exact hy)
  | e2 =>
    exact mk (s' := cstep s t c rest v k .e2) (q := retP k) (by simp [cstep]) (by simp [cstep])
      (by simpa [cstep] using hret .lib (by simp)) (by simp [cstep])
  | n2 =>
    exact mk (s' := cstep s t c rest v k .n2) (q := retP k) (by simp [cstep]) (by simp [cstep])
      (by simpa [cstep] using hret .lib (by simp)) (by simp [cstep])
  | l2 =>
    refine mk (q := some (.l3, k)) (fun _ h => h) rfl (fun y hy => hc y ?_) (by simp [cstep])
    cases y <;> first | exact hy | (simp [flags] at hy ⊢; done) | (simp [flags] at hy ⊢; exact hy)
  | l3 =>
    exact mk (s' := cstep s t c rest v k .l3) (q := retP k) (by simp [cstep]) (by simp [cstep])
      (by simpa [cstep] using hret .lib (by simp)) (by simp)
  | p1 =>
    simp only [cstep]
    split
    · refine mk (q := some (.p2, k)) (fun _ h => h) rfl (fun y hy => hc y ?_) fun _ h => .inl h
      cases y <;> first | exact hy | (simp [flags] at hy ⊢; done) | (simp [flags] at hy ⊢; exact hy)
    · split
      · exact mk (q := retP k) (by simp) (by simp) (by simpa using hret .lib (by simp)) (by simp)
      · refine mk (q := some (.p3, k)) (fun _ h => h) rfl (fun y hy => hc y ?_) fun _ h => .inl h
        cases y <;> first | exact hy | (simp [flags] at hy ⊢; done) | (simp [flags] at hy ⊢; exact hy)
  | p2 =>
    refine mk (q := some (.p3, k)) (fun _ h => h) rfl (fun y hy => hc y ?_) (by simp [cstep])
    cases y <;> first | exact hy | (simp [flags] at hy ⊢; done) | (simp [flags] at hy ⊢; exact hy)
  | p3 =>
    refine mk (q := some (.test .lib, .p4 :: k)) (fun _ h => h) rfl (fun y hy => hc y ?_) fun _ h => .inl h
    cases y <;> first | exact hy | (simp [flags] at hy ⊢; done) | (simp [flags] at hy ⊢; exact hy)
  | p4 =>
    refine mk (q := some (.p5, k)) (fun _ h => h) rfl (fun y hy => hc y ?_) (by simp [cstep])
    cases y <;> first | exact hy | (simp [flags] at hy ⊢; done) | (simp [flags] at hy ⊢; exact hy)
  | p5 =>
    exact mk (s' := cstep s t c rest v k .p5) (q := retP k) (by simp [cstep]) (by simp [cstep])
      (by simpa [cstep] using hret .lib (by simp)) (by simp [cstep])

theorem flag_enter {s : S} (h : FlagI s) {t : Tid} {p : Step × List Ret} {f : Bool} {d : Data}
    (hp : ∀ x, flags (some p) x = false) : FlagI (s.enter t p f d) := by
  refine flagI_same h (fun _ h => h) (fun e x he => ?_) fun _ h => h
  rw [enter_pc] at he
  by_cases k : e = s.nextC
  · rw [k, upd_self, hp] at he; cases he
  · rwa [upd_ne k] at he

theorem flag_next {s s' : S} {l : Lbl} (ih : FlagI s) (hsh : ∀ c, shape (s.pc c) = true)
    (hn : next s l = some s') : FlagI s' := by
  cases l with
  | go t v =>
    simp only [next] at hn
    split at hn
    · rename_i c rest ht
      split at hn
      · rename_i p k hp
        cases hn
        exact flag_cstep ih hp (hp ▸ hsh c)
      · cases hn
    · cases hn; exact flagI_same ih (fun _ h => h) (fun _ _ h => h) fun _ h => h
    · cases hn
  | call t k =>
    simp only [next] at hn
    split at hn
    · cases hn; exact flag_enter ih (by cases k <;> intro x <;> cases x <;> rfl)
    · cases hn
  | interrupt t =>
    simp only [next] at hn
    split at hn
    · cases hn
    · cases hn; exact flagI_same ih (fun _ h => h) (fun _ _ h => h) fun _ h => h
  | unwind t n =>
    simp only [next] at hn
    split at hn
    · cases hn
      refine flagI_same ih (fun _ h => h) (fun d x hd => ?_) fun _ h => h
      simp only at hd
      split at hd
      · cases x <;> cases hd
      · exact hd
    · cases hn
  | fork t v =>
    simp only [next] at hn
    split at hn
    · cases hn
      refine flag_enter ?_ (by intro x; cases x <;> rfl)
      refine flagI_same ih (fun _ h => h) (fun d x hd => ?_) (by simp)
      simp only at hd
      split at hd
      · exact hd
      · cases x <;> cases hd
    · cases hn

/-- Nobody is in the middle of anything, and nobody will be. -/
structure Over (s : S) : Prop where
  run : ∀ x, s.run x = true
  betw : ∀ c x, ¬ betw x (s.pc c)
  e : ∀ c, inE (s.pc c) = false
  n : ∀ c, inN (s.pc c) = false

theorem over_drop {s s' : S} (h : Over s) (h1 : s'.run = s.run)
    (h2 : ∀ d, s'.pc d = s.pc d ∨ s'.pc d = none) : Over s' := by
  refine ⟨by rw [h1]; exact h.run, fun c x => ?_, fun c => ?_, fun c => ?_⟩ <;> rcases h2 c with e | e <;> rw [e]
  · exact h.betw c x
  · exact id
  · exact h.e c
  · rfl
  · exact h.n c
  · rfl

theorem over_upd {s s' : S} (h : Over s) {c : Call} {q : P} (h1 : ∀ x, s'.run x = true)
    (h2 : s'.pc = upd s.pc c q) (h3 : (∀ x, ¬ Once.betw x q) ∧ inE q = false ∧ inN q = false) : Over s' := by
  refine ⟨h1, fun d x => ?_, by rw [h2]; exact upd_all (fun d _ => h.e d) h3.2.1,
    by rw [h2]; exact upd_all (fun d _ => h.n d) h3.2.2⟩
  rw [h2]
  by_cases e : d = c
  · rw [e, upd_self]; exact h3.1 x
  · rw [upd_ne e]; exact h.betw d x

theorem retP_out {p : Step} {k : List Ret} (hs : shape (some (p, k)) = true)
    (ho : (∀ x, ¬ betw x (some (p, k))) ∧ inE (some (p, k)) = false ∧ inN (some (p, k)) = false) :
    (∀ x, ¬ betw x (retP k)) ∧ inE (retP k) = false ∧ inN (retP k) = false := by
  refine ⟨fun _ => retP_betw, ?_, ?_⟩
  · rcases k with - | ⟨- | - | - | -, k⟩ <;> rfl
  · have := ho.2.2
    rcases p with x | x | - | - | - | - | - | - | - | - | - | - <;> (try rcases x) <;>
      simp only [shape, List.contains_cons, List.contains_nil, Bool.or_false, Bool.or_eq_true, beq_iff_eq] at hs <;>
      (first
        | (rcases hs with rfl | rfl | rfl | rfl | rfl)
        | (rcases hs with rfl | rfl | rfl | rfl)
        | (rcases hs with rfl | rfl)
        | (subst hs)) <;>
      first | rfl | exact absurd this (by decide)

theorem over_cstep {s : S} (h : Over s) {t : Tid} {c : Call} {rest : List Slot} {v : Data}
    {p : Step} {k : List Ret} (hp : s.pc c = some (p, k)) (hs : shape (some (p, k)) = true) :
    Over (cstep s t c rest v k p) := by
  have h0 := h.betw c
  have h1 := h.e c
  have h2 := h.n c
  rw [hp] at h0 h1 h2
  have hr := retP_out hs ⟨h0, h1, h2⟩
  cases p with
  | test x =>
    simp only [cstep, h.run x, if_true]
    exact over_upd (c := c) (q := retP k) h (by simpa using h.run) (by simp) hr
  | set x => exact absurd rfl (h0 x)
  | e1 => cases h1
  | e2 => cases h1
  | n2 => cases h2
  | l2 => exact over_upd h h.run (q := some (.l3, k)) rfl ⟨fun _ => id, rfl, h2⟩
  | l3 => exact over_upd (c := c) (q := retP k) h (by simpa [cstep] using h.run) (by simp [cstep]) hr
  | p1 =>
    simp only [cstep]
    split
    · exact over_upd h h.run (q := some (.p2, k)) rfl ⟨fun _ => id, rfl, h2⟩
    · split
      · exact over_upd (c := c) (q := retP k) h (by simpa using h.run) (by simp) hr
      · exact over_upd h h.run (q := some (.p3, k)) rfl ⟨fun _ => id, rfl, h2⟩
  | p2 => exact over_upd h h.run (q := some (.p3, k)) rfl ⟨fun _ => id, rfl, h2⟩
  | p3 =>
    exact over_upd h h.run (q := some (.test .lib, .p4 :: k)) rfl ⟨fun _ => id, rfl, by simpa [inN] using h2⟩
  | p4 => exact over_upd h h.run (q := some (.p5, k)) rfl ⟨fun _ => id, rfl, h2⟩
  | p5 => exact over_upd (c := c) (q := retP k) h (by simpa [cstep] using h.run) (by simp [cstep]) hr

theorem start_out {p : Step × List Ret}
    (hp : p ∈ [(.test .lib, []), (.test .early, []), (.test .normal, []), (.test .normal, [.p1])]) :
    (∀ x, ¬ betw x (some p)) ∧ inE (some p) = false ∧ inN (some p) = false := by
  simp only [List.mem_cons, List.not_mem_nil, or_false] at hp
  rcases hp with rfl | rfl | rfl | rfl <;> exact ⟨fun _ => id, by decide, by decide⟩

theorem over_next {s s' : S} {l : Lbl} (ih : Over s) (hsh : ∀ c, shape (s.pc c) = true)
    (hn : next s l = some s') : Over s' := by
  cases l with
  | go t v =>
    simp only [next] at hn
    split at hn
    · rename_i c rest ht
      split at hn
      · rename_i p k hp
        cases hn
        exact over_cstep ih hp (hp ▸ hsh c)
      · cases hn
    · cases hn; exact over_drop ih rfl fun _ => .inl rfl
    · cases hn
  | call t k =>
    simp only [next] at hn
    split at hn
    · cases hn; exact over_upd ih ih.run enter_pc (start_out (by cases k <;> decide))
    · cases hn
  | interrupt t =>
    simp only [next] at hn
    split at hn
    · cases hn
    · cases hn; exact over_drop ih rfl fun _ => .inl rfl
  | unwind t n =>
    simp only [next] at hn
    split at hn
    · cases hn
      refine over_drop ih rfl fun d => ?_
      simp only
      split
      · exact .inr rfl
      · exact .inl rfl
    · cases hn
  | fork t v =>
    simp only [next] at hn
    split at hn
    · rename_i rest ht
      cases hn
      have : Over ({ s.log .fork with
          th := fun u => if u = t then none :: rest else []
          pc := fun c => if some c ∈ rest then s.pc c else none }) := by
        refine over_drop ih rfl fun d => ?_
        simp only
        split
        · exact .inl rfl
        · exact .inr rfl
      exact over_upd this this.run enter_pc (start_out (by decide))
    · cases hn

theorem over_step {s : S} (h : Over s) (l : Lbl) : NoRace s l ∧ Serial s l := by
  have hin : ∀ {d x}, x ≠ Guard.lib → ¬ Inside s d x := by
    intro d x hx hi
    cases x with
    | lib => exact hx rfl
    | early => have := inE_iff.2 hi; rw [h.e] at this; cases this
    | normal => have := inN_iff.2 hi; rw [h.n] at this; cases this
  exact ⟨fun _ _ _ x d _ _ _ hb => h.betw d x (between_iff.1 hb),
    fun x hx => ⟨fun _ _ _ _ _ _ _ => hin hx, fun _ _ _ _ _ => hin hx, fun _ _ _ _ _ => hin hx⟩⟩

/-- The step in which monitor_begin_library_fcn finishes. -/
theorem fin_next {s s' : S} {l : Lbl} {c : Call} (hn : next s l = some s') (h : Ev.fin .lib c ∈ s'.tr)
    (h0 : Ev.fin .lib c ∉ s.tr) :
    ∃ t v rest k, l = .go t v ∧ s.th t = some c :: rest ∧ s.pc c = some (.l3, k) := by
  cases l with
  | go t v =>
    simp only [next] at hn
    split at hn
    · rename_i d rest ht
      split at hn
      · rename_i p k hp
        cases hn
        cases p <;> simp [cstep, h0] at h
        case test x => split at h <;> simp [h0] at h
        case p1 => split at h <;> (try split at h) <;> simp [h0] at h
        case l3 => subst h; exact ⟨t, v, rest, k, rfl, ht, hp⟩
      · cases hn
    · cases hn; exact absurd h h0
    · cases hn
  | call t k =>
    simp only [next] at hn
    split at hn
    · cases hn; exact absurd h h0
    · cases hn
  | interrupt t =>
    simp only [next] at hn
    split at hn
    · cases hn
    · cases hn; exact absurd h h0
  | unwind t n =>
    simp only [next] at hn
    split at hn
    · cases hn; exact absurd h h0
    · cases hn
  | fork t v =>
    simp only [next] at hn
    split at hn
    · cases hn
      have h : Ev.fin .lib c ∈ Ev.fork :: s.tr := h
      exact absurd (by simpa using h) h0
    · cases hn

theorem tr_mono {s s' : S} {l : Lbl} (hn : next s l = some s') {e : Ev} (he : e ∈ s.tr) : e ∈ s'.tr := by
  cases l with
  | go t v =>
    simp only [next] at hn
    split at hn
    · split at hn
      · rename_i p k hp
        cases hn
        cases p <;> simp [cstep, he]
        case test x => split <;> simp [he]
        case p1 => split <;> (try split) <;> simp [he]
      · cases hn
    · cases hn; exact he
    · cases hn
  | call t k =>
    simp only [next] at hn
    split at hn
    · cases hn; exact he
    · cases hn
  | interrupt t =>
    simp only [next] at hn
    split at hn
    · cases hn
    · cases hn; exact he
  | unwind t n =>
    simp only [next] at hn
    split at hn
    · cases hn; exact he
    · cases hn
  | fork t v =>
    simp only [next] at hn
    split at hn
    · cases hn; exact List.mem_cons_of_mem _ he
    · cases hn

theorem first_reach {s : S} (hs : ReachA LibraryFirst s) : ReachA NoRace s ∧ ReachA Serial s ∧ FlagI s ∧
    ((∃ c, Ev.fin .lib c ∈ s.tr) ∧ Over s ∨ (∀ c, Ev.fin .lib c ∉ s.tr) ∧ CalmI s) := by
  induction hs with
  | init =>
    refine ⟨.init, .init, ⟨fun c x h => ?_, by simp⟩, .inr ⟨by simp, (calm_reach .init).2.2⟩⟩
    cases x <;> cases h
  | @next s s' l hs ha hn ih =>
    obtain ⟨i1, i2, i3, i4⟩ := ih
    have hsh := shape_reach hs
    have i3' := flag_next i3 hsh hn
    rcases i4 with ⟨⟨c, hc⟩, i4⟩ | ⟨hc, i4⟩
    · obtain ⟨a1, a2⟩ := over_step i4 l
      have : ∃ c, Ev.fin .lib c ∈ s'.tr := ⟨c, tr_mono hn hc⟩
      exact ⟨i1.next a1 hn, i2.next a2 hn, i3', .inl ⟨this, over_next i4 hsh hn⟩⟩
    · have ha := ha hc
      obtain ⟨a1, a2⟩ := calm_step i4 hsh ha hn
      have j1 := i1.next a1 hn
      have j2 := i2.next a2 hn
      refine ⟨j1, j2, i3', ?_⟩
      by_cases hd : ∃ c, Ev.fin .lib c ∈ s'.tr
      · obtain ⟨c, hd⟩ := hd
        obtain ⟨t, v, rest, k, rfl, ht, hp⟩ := fin_next hn hd (hc c)
        cases ha
        have hsc := hsh c
        rw [hp] at hsc
        have hk : k = [] ∨ k = [.p4] := by
          simpa only [shape, List.contains_cons, List.contains_nil, Bool.or_false, Bool.or_eq_true, beq_iff_eq]
            using hsc
        have rdy := (inv_reach i2).past c (by rw [hp]; rfl)
        have hover : Over s := by
          refine ⟨fun x => ?_, fun d x => ?_, fun d => ?_, fun d => ?_⟩
          · cases x with
            | early => exact rdy.run
            | normal => exact i3.pc c .normal (by rw [hp]; rfl)
            | lib => exact i3.pc c .lib (by rw [hp]; rfl)
          · by_cases e : d = c
            · rw [e, hp]; exact id
            · exact (calm_out i4 hsh ht fun k => e (by cases k; rfl)).1 x
          · exact rdy.out d
          · by_cases e : d = c
            · rw [e, hp]; rcases hk with rfl | rfl <;> rfl
            · exact (calm_out i4 hsh ht fun k => e (by cases k; rfl)).2.2
        exact .inl ⟨⟨c, hd⟩, over_next hover hsh hn⟩
      · exact .inr ⟨fun c k => hd ⟨c, k⟩, calm_next i4 ha hn⟩

end Libmonitor.Once
