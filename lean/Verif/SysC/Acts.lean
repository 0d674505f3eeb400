import Verif.SysC.Lemmas

/-!
# Invariants about actions and masks
-/

namespace Libmonitor.SysC

theorem mem_ofCall {c : Nat} {tr : Hist} {x : Tid × Ev} (h : x ∈ tr) (hc : x.2.call = some c) :
    x ∈ ofCall c tr := by
  simp [ofCall, h, hc]

theorem of_mem_ofCall {c : Nat} {tr : Hist} {x : Tid × Ev} (h : x ∈ ofCall c tr) : x ∈ tr := by
  simp only [ofCall, List.mem_reverse, List.mem_filter] at h
  exact h.1

/-- What a step does to the actions. -/
inductive Change (sg : Sg) (s s' : S) : Prop where
  | none : s'.g.act sg = s.g.act sg → opened sg s'.g.tr = opened sg s.g.tr →
      (∀ a0, lastSet a0 sg s'.g.tr = lastSet a0 sg s.g.tr) →
      (∀ x ∈ s'.g.tr, x ∉ s.g.tr → ∀ c a, x.2 ≠ .save sg c a) → Change sg s s'
  | save (t : Tid) (k : K) : s'.g.act sg = IGN → s'.g.tr = (t, .save sg k.c (s.g.act sg)) :: s.g.tr →
      Change sg s s'
  | restore (t : Tid) (p : Pc) (k : K) (rest : List Frame) : s.th t = .sys p k :: rest →
      (sg = .int ∧ (p = .rs1 ∨ p = .ch1) ∧ s'.g.act sg = k.oi ∧
        s'.g.tr = (t, .restore sg k.c k.oi) :: s.g.tr) ∨
      (sg = .quit ∧ (p = .rs2 ∨ p = .ch2) ∧ s'.g.act sg = k.oq ∧
        s'.g.tr = (t, .restore sg k.c k.oq) :: s.g.tr) → Change sg s s'
  | set (t : Tid) (a : Act) : s'.g.act sg = a → s'.g.tr = (t, .appSet sg a) :: s.g.tr → Change sg s s'

theorem change_quiet {sg : Sg} {s s' : S} {t : Tid} {e : Ev} (ha : s'.g.act sg = s.g.act sg)
    (htr : s'.g.tr = (t, e) :: s.g.tr) (h1 : ∀ c a, e ≠ .save sg c a) (h2 : ∀ c a, e ≠ .restore sg c a)
    (h3 : ∀ a, e ≠ .appSet sg a) : Change sg s s' := by
  refine .none ha ?_ ?_ ?_
  · rw [htr]
    cases e <;> simp only [opened] <;> try rfl
    · split
      · subst_vars; exact absurd rfl (h1 _ _)
      · rfl
    · split
      · subst_vars; exact absurd rfl (h2 _ _)
      · rfl
  · intro a0
    rw [htr]
    cases e <;> simp only [lastSet] <;> try rfl
    split
    · subst_vars; exact absurd rfl (h3 _)
    · rfl
  · intro x hx hn c a
    rw [htr] at hx
    rcases List.mem_cons.mp hx with rfl | hx
    · exact h1 c a
    · exact absurd hx hn

theorem change_same {sg : Sg} {s s' : S} (ha : s'.g.act sg = s.g.act sg) (htr : s'.g.tr = s.g.tr) :
    Change sg s s' :=
  .none ha (by rw [htr]) (fun _ => by rw [htr]) fun x hx hn => absurd (htr ▸ hx) hn

theorem change_step {s s' : S} {l : Lbl} (hm : Move s l s') (sg : Sg) : Change sg s s' := by
  cases hm with
  | @frame t v f rest r he hne hf =>
    cases f with
    | app => simp only [fstep, Option.some.injEq] at hf; subst hf; exact change_same rfl rfl
    | sigret m => simp only [fstep, Option.some.injEq] at hf; subst hf; exact change_same rfl rfl
    | sys p k =>
      simp only [fstep] at hf
      cases p <;> simp only [sstep] at hf
      case sv1 =>
        simp only [Option.some.injEq] at hf; subst hf
        cases sg
        · exact .save t k (by simp [G.setAct]) rfl
        · exact change_quiet (t := t) (by simp [G.setAct, G.log]) rfl (by simp) (by simp) (by simp)
      case sv2 =>
        simp only [Option.some.injEq] at hf; subst hf
        cases sg
        · exact change_quiet (t := t) (by simp [G.setAct, G.log]) rfl (by simp) (by simp) (by simp)
        · exact .save t k (by simp [G.setAct]) rfl
      case rs1 =>
        simp only [Option.some.injEq] at hf; subst hf
        cases sg
        · exact .restore t _ k rest he (.inl ⟨rfl, .inl rfl, by simp [G.setAct], rfl⟩)
        · exact change_quiet (t := t) (by simp [G.setAct, G.log]) rfl (by simp) (by simp) (by simp)
      case ch1 =>
        simp only [Option.some.injEq] at hf; subst hf
        cases sg
        · exact .restore t _ k rest he (.inl ⟨rfl, .inr rfl, by simp [G.setAct], rfl⟩)
        · exact change_quiet (t := t) (by simp [G.setAct, G.log]) rfl (by simp) (by simp) (by simp)
      case rs2 =>
        simp only [Option.some.injEq] at hf; subst hf
        cases sg
        · exact change_quiet (t := t) (by simp [G.setAct, G.log]) rfl (by simp) (by simp) (by simp)
        · exact .restore t _ k rest he (.inr ⟨rfl, .inl rfl, by simp [G.setAct], rfl⟩)
      case ch2 =>
        simp only [Option.some.injEq] at hf; subst hf
        cases sg
        · exact change_quiet (t := t) (by simp [G.setAct, G.log]) rfl (by simp) (by simp) (by simp)
        · exact .restore t _ k rest he (.inr ⟨rfl, .inr rfl, by simp [G.setAct], rfl⟩)
      case frk =>
        split at hf
        · simp at hf
        split at hf <;> simp only [Option.some.injEq] at hf <;> subst hf <;>
          exact change_quiet (t := t) rfl rfl (by simp) (by simp) (by simp)
      case pre | post | exc =>
        split at hf <;> simp only [Option.some.injEq] at hf <;> subst hf <;>
          first
            | exact change_quiet (t := t) rfl rfl (by simp) (by simp) (by simp)
            | exact change_same rfl rfl
      all_goals
        simp only [Option.some.injEq] at hf; subst hf
        exact change_quiet (t := t) rfl rfl (by simp) (by simp) (by simp)
  | eintr => exact change_same rfl rfl
  | @system t cb rest he => exact change_quiet (t := t) rfl rfl (by simp) (by simp) (by simp)
  | @appSet t sg' a rest he =>
    by_cases h : sg' = sg
    · subst h; exact .set t a (by simp [G.setAct]) rfl
    · refine change_quiet (t := t) (e := .appSet sg' a) ?_ rfl (by simp) (by simp) (by simp [h])
      simp [G.setAct, G.log, Ne.symm h]
  | appMask => exact change_same rfl rfl
  | @fork t rest he => exact change_quiet (t := t) rfl rfl (by simp) (by simp) (by simp)
  | interrupt => exact change_same rfl rfl
  | unwind => exact change_same rfl rfl
  | @child t k rest he => exact change_quiet (t := t) rfl rfl (by simp) (by simp) (by simp)

/-- What a restoring call has saved. -/
theorem saved_int {s : S} (hi : Inv s) {t : Tid} {p : Pc} {k : K} {rest : List Frame}
    (he : s.th t = .sys p k :: rest) (hp : p = .rs1 ∨ p = .ch1) :
    (t, Ev.save .int k.c k.oi) ∈ s.g.tr ∧ ∀ u a, (u, Ev.save .int k.c a) ∈ s.g.tr → a = k.oi := by
  have ht := (hi.told t p k (by simp [he])).2
  rcases hp with rfl | rfl <;> simp only [reduceCtorEq, if_false] at ht <;>
  · refine ⟨of_mem_ofCall (c := k.c) (by rw [ht]; simp [path, opening]), fun u a h => ?_⟩
    have hm := mem_ofCall h rfl
    rw [ht] at hm
    simp [path, opening, ifCb] at hm
    exact hm.2

theorem saved_quit {s : S} (hi : Inv s) {t : Tid} {p : Pc} {k : K} {rest : List Frame}
    (he : s.th t = .sys p k :: rest) (hp : p = .rs2 ∨ p = .ch2) :
    (t, Ev.save .quit k.c k.oq) ∈ s.g.tr ∧ ∀ u a, (u, Ev.save .quit k.c a) ∈ s.g.tr → a = k.oq := by
  have ht := (hi.told t p k (by simp [he])).2
  rcases hp with rfl | rfl <;> simp only [reduceCtorEq, if_false] at ht <;>
  · refine ⟨of_mem_ofCall (c := k.c) (by rw [ht]; simp [path, opening]), fun u a h => ?_⟩
    have hm := mem_ofCall h rfl
    rw [ht] at hm
    simp [path, opening, ifCb] at hm
    exact hm.2

/-- The action is SIG_IGN or one that the application has set. -/
def Known (a0 : Sg → Act) (sg : Sg) (tr : Hist) (a : Act) : Prop := a = IGN ∨ WasSet a0 sg tr a

theorem known_mono {a0 : Sg → Act} {sg : Sg} {tr tr' : Hist} {a : Act} (h : ∀ x ∈ tr, x ∈ tr')
    (hk : Known a0 sg tr a) : Known a0 sg tr' a := by
  rcases hk with h1 | h1 | ⟨t, h1⟩
  · exact .inl h1
  · exact .inr (.inl h1)
  · exact .inr (.inr ⟨t, h _ h1⟩)

theorem tr_grows {s s' : S} {l : Lbl} (hm : Move s l s') : ∀ x ∈ s.g.tr, x ∈ s'.g.tr := by
  intro x hx
  cases hm with
  | @frame t v f rest r he hne hf =>
    cases f with
    | app => simp only [fstep, Option.some.injEq] at hf; subst hf; exact hx
    | sigret m => simp only [fstep, Option.some.injEq] at hf; subst hf; exact hx
    | sys p k =>
      simp only [fstep] at hf
      cases p <;> simp only [sstep] at hf
      case frk =>
        split at hf
        · simp at hf
        split at hf <;> simp only [Option.some.injEq] at hf <;> subst hf <;> exact List.mem_cons_of_mem _ hx
      case pre | post | exc =>
        split at hf <;> simp only [Option.some.injEq] at hf <;> subst hf <;>
          first
            | exact List.mem_cons_of_mem _ hx
            | exact hx
      all_goals
        simp only [Option.some.injEq] at hf; subst hf
        exact List.mem_cons_of_mem _ hx
  | eintr => exact hx
  | system => exact List.mem_cons_of_mem _ hx
  | appSet => exact List.mem_cons_of_mem _ hx
  | appMask => exact hx
  | fork => exact List.mem_cons_of_mem _ hx
  | interrupt => exact hx
  | unwind => exact hx
  | child => exact List.mem_cons_of_mem _ hx

theorem known_inv {A : S → Lbl → Prop} {a0 : Sg → Act} {m0 : Tid → Mask} {s : S} (hs : ReachA A a0 m0 s)
    (sg : Sg) : Known a0 sg s.g.tr (s.g.act sg) ∧
      ∀ t c a, (t, Ev.save sg c a) ∈ s.g.tr → Known a0 sg s.g.tr a := by
  induction hs with
  | init => exact ⟨.inr (.inl rfl), fun t c a h => by simp at h⟩
  | @next s s' l hs ha hn ih =>
    have hm := (move_of_next hn).2
    have hi := inv_of hs
    have mono := tr_grows hm
    have old : ∀ t c a, (t, Ev.save sg c a) ∈ s.g.tr → Known a0 sg s'.g.tr a :=
      fun t c a h => known_mono mono (ih.2 t c a h)
    rcases change_step hm sg with ⟨h1, h2, h3, h4⟩ | ⟨t, k, h1, h2⟩ | ⟨t, p, k, rest, he, h⟩ | ⟨t, a, h1, h2⟩
    · refine ⟨by rw [h1]; exact known_mono mono ih.1, fun t c a h => ?_⟩
      by_cases ho : (t, Ev.save sg c a) ∈ s.g.tr
      · exact old t c a ho
      · exact absurd rfl (h4 _ h ho c a)
    · refine ⟨.inl h1, fun u c a h => ?_⟩
      rw [h2] at h
      rcases List.mem_cons.mp h with h | h
      · cases h; exact known_mono mono ih.1
      · exact old u c a h
    · rcases h with ⟨rfl, hp, h1, h2⟩ | ⟨rfl, hp, h1, h2⟩
      · refine ⟨by rw [h1]; exact old _ _ _ (saved_int hi he hp).1, fun u c a h => ?_⟩
        rw [h2] at h
        rcases List.mem_cons.mp h with h | h
        · cases h
        · exact old u c a h
      · refine ⟨by rw [h1]; exact old _ _ _ (saved_quit hi he hp).1, fun u c a h => ?_⟩
        rw [h2] at h
        rcases List.mem_cons.mp h with h | h
        · cases h
        · exact old u c a h
    · refine ⟨.inr (.inr ⟨t, by rw [h1, h2]; exact List.mem_cons_self⟩), fun u c b h => ?_⟩
      rw [h2] at h
      rcases List.mem_cons.mp h with h | h
      · cases h
      · exact old u c b h

/-! ### Calls that are properly nested -/

/-- Each open call has found SIG_IGN, except for the first, which has found the application's action. -/
def Chain (cur last : Act) : List (Nat × Act) → Prop
  | [] => cur = last
  | (_, a) :: r => cur = IGN ∧ Chain a last r

theorem opened_save {sg : Sg} {tr : Hist} {c : Nat} {a : Act} (h : (c, a) ∈ opened sg tr) :
    ∃ t, (t, Ev.save sg c a) ∈ tr := by
  induction tr with
  | nil => simp [opened] at h
  | cons x r ih =>
    obtain ⟨t, e⟩ := x
    have lift : (c, a) ∈ opened sg r → ∃ u, (u, Ev.save sg c a) ∈ (t, e) :: r := fun h => by
      obtain ⟨u, hu⟩ := ih h; exact ⟨u, List.mem_cons_of_mem _ hu⟩
    cases e <;> simp only [opened] at h <;> try exact lift h
    · split at h
      · subst_vars
        rcases List.mem_cons.mp h with h | h
        · cases h; exact ⟨t, List.mem_cons_self⟩
        · exact lift h
      · exact lift h
    · split at h
      · exact lift (List.mem_of_mem_eraseP h)
      · exact lift h

theorem chain_inv {a0 : Sg → Act} {m0 : Tid → Mask} {s : S} (hs : ReachA Nested a0 m0 s) (sg : Sg)
    (hb : notChild s.g.tr) : Chain (s.g.act sg) (lastSet a0 sg s.g.tr) (opened sg s.g.tr) := by
  induction hs with
  | init => rfl
  | @next s s' l hs ha hn ih =>
    have hm := (move_of_next hn).2
    have hi := inv_of hs
    have ih := ih fun t c h => hb t c (tr_grows hm _ h)
    have nobirth : ∀ t k rest, s.th t ≠ .sys .ch1 k :: rest ∧ s.th t ≠ .sys .ch2 k :: rest := by
      intro t k rest
      constructor <;> intro he
      · have ht := (hi.told t _ k (by rw [he]; exact List.mem_cons_self)).2
        simp only [reduceCtorEq, if_false] at ht
        exact hb t k.c (tr_grows hm _ (of_mem_ofCall (c := k.c) (by rw [ht]; simp [path])))
      · have ht := (hi.told t _ k (by rw [he]; exact List.mem_cons_self)).2
        simp only [reduceCtorEq, if_false] at ht
        exact hb t k.c (tr_grows hm _ (of_mem_ofCall (c := k.c) (by rw [ht]; simp [path])))
    rcases change_step hm sg with ⟨h1, h2, h3, h4⟩ | ⟨t, k, h1, h2⟩ | ⟨t, p, k, rest, he, h⟩ | ⟨t, a, h1, h2⟩
    · rw [h1, h2, h3]; exact ih
    · rw [h1, h2]
      simp only [opened, if_true, lastSet, Chain]
      exact ⟨trivial, ih⟩
    · have hrest : ∀ sg' a, restoring s t = some (sg', k.c) → (∀ u b, (u, Ev.save sg' k.c b) ∈ s.g.tr → b = a) →
          Chain (s.g.act sg') (lastSet a0 sg' s.g.tr) (opened sg' s.g.tr) →
          s'.g.tr = (t, .restore sg' k.c a) :: s.g.tr →
          Chain a (lastSet a0 sg' s'.g.tr) (opened sg' s'.g.tr) := by
        intro sg' a hr hu hc htr
        have hv : ∃ v, l = .go t v := by
          cases hm with
          | @frame t' v f rest' r he' hne hf =>
            by_cases ht : t' = t
            · subst ht; exact ⟨v, rfl⟩
            · exfalso
              cases f with
              | app => simp only [fstep, Option.some.injEq] at hf; subst hf; simp at htr
              | sigret m => simp only [fstep, Option.some.injEq] at hf; subst hf; simp [G.setMask] at htr
              | sys p' k' =>
                obtain ⟨g', fs⟩ := r
                have := (sstep_told hf (hi.told t' p' k' (by rw [he']; exact List.mem_cons_self))).tr
                rcases this with h | ⟨e, _, h⟩
                · simp only [h] at htr; simp at htr
                · simp only [h] at htr; simp only [List.cons.injEq, Prod.mk.injEq] at htr
                  exact ht htr.1.1
          | eintr => simp at htr
          | system => simp [G.log] at htr
          | appSet => simp [G.log, G.setAct] at htr
          | appMask => simp [G.setMask] at htr
          | fork => simp [G.log] at htr
          | interrupt => simp [G.setMask] at htr
          | unwind => simp [G.setMask] at htr
          | child => simp [G.log] at htr
        obtain ⟨v, rfl⟩ := hv
        obtain ⟨b, r, ho⟩ := ha.1 t v rfl sg' k.c hr
        have hb' : b = a := by
          obtain ⟨u, h⟩ := opened_save (by rw [ho]; exact List.mem_cons_self)
          exact hu u b h
        rw [htr]
        simp only [opened, if_true, lastSet]
        rw [ho] at hc ⊢
        simp only [Chain] at hc
        simp [hb' ▸ hc.2]
      rcases h with ⟨rfl, hp, h1, h2⟩ | ⟨rfl, hp, h1, h2⟩
      · rcases hp with rfl | rfl
        · rw [h1]
          exact hrest .int k.oi (by simp [restoring, he]) (saved_int hi he (.inl rfl)).2 ih h2
        · exact absurd he (nobirth t k rest).1
      · rcases hp with rfl | rfl
        · rw [h1]
          exact hrest .quit k.oq (by simp [restoring, he]) (saved_quit hi he (.inl rfl)).2 ih h2
        · exact absurd he (nobirth t k rest).2
    · have : opened sg s.g.tr = [] := by
        cases hm with
        | @appSet t' sg' a' rest he =>
          simp only [G.setAct, G.log, List.cons.injEq, Prod.mk.injEq, Ev.appSet.injEq] at h2
          obtain ⟨⟨rfl, rfl, rfl⟩, _⟩ := h2
          exact ha.2 _ _ _ rfl
        | @frame t' v f rest' r he' hne hf =>
          exfalso
          cases f with
          | app => simp only [fstep, Option.some.injEq] at hf; subst hf; simp at h2
          | sigret m => simp only [fstep, Option.some.injEq] at hf; subst hf; simp [G.setMask] at h2
          | sys p' k' =>
            obtain ⟨g', fs⟩ := r
            have := (sstep_told hf (hi.told t' p' k' (by rw [he']; exact List.mem_cons_self))).tr
            rcases this with h | ⟨e, hec, h⟩
            · simp only [h] at h2; simp at h2
            · simp only [h] at h2; simp only [List.cons.injEq, Prod.mk.injEq] at h2
              rw [h2.1.2] at hec; simp [Ev.call] at hec
        | eintr => simp at h2
        | system => simp [G.log] at h2
        | appMask => simp [G.setMask] at h2
        | fork => simp [G.log] at h2
        | interrupt => simp [G.setMask] at h2
        | unwind => simp [G.setMask] at h2
        | child => simp [G.log] at h2
      rw [h1, h2]
      simp [opened, lastSet, this, Chain]

/-- The events that a step adds. -/
theorem new_event {s s' : S} {l : Lbl} (hi : Inv s) (hm : Move s l s') :
    s'.g.tr = s.g.tr ∨ ∃ u e, s'.g.tr = (u, e) :: s.g.tr := by
  cases hm with
  | @frame t' v f rest' r he' hne hf =>
    cases f with
    | app => simp only [fstep, Option.some.injEq] at hf; subst hf; exact .inl rfl
    | sigret m => simp only [fstep, Option.some.injEq] at hf; subst hf; exact .inl rfl
    | sys p' k' =>
      obtain ⟨g', fs⟩ := r
      rcases (sstep_told hf (hi.told t' p' k' (by rw [he']; exact List.mem_cons_self))).tr with
        h | ⟨e, _, h⟩
      · exact .inl h
      · exact .inr ⟨t', e, h⟩
  | eintr => exact .inl rfl
  | system => exact .inr ⟨_, _, rfl⟩
  | appSet => exact .inr ⟨_, _, rfl⟩
  | appMask => exact .inl rfl
  | fork => exact .inr ⟨_, _, rfl⟩
  | interrupt => exact .inl rfl
  | unwind => exact .inl rfl
  | child => exact .inr ⟨_, _, rfl⟩

/-- What a call has found, if no call had replaced the action. -/
theorem first_inv {a0 : Sg → Act} {m0 : Tid → Mask} {s : S} (hs : ReachA Nested a0 m0 s) {sg : Sg}
    {p q : Hist} {t : Tid} {c : Nat} {a : Act} (htr : s.g.tr = p ++ (t, .save sg c a) :: q)
    (hb : notChild q) (ho : opened sg q = []) : a = lastSet a0 sg q := by
  induction hs generalizing p with
  | init => simp at htr
  | @next s s' l hs ha hn ih =>
    have hm := (move_of_next hn).2
    have hi := inv_of hs
    rcases new_event hi hm with h | ⟨u, e, h⟩
    · exact ih (h ▸ htr)
    · cases p with
      | cons x p =>
        rw [h] at htr
        simp only [List.cons_append, List.cons.injEq] at htr
        exact ih htr.2
      | nil =>
        simp only [List.nil_append] at htr
        have hq : s.g.tr = q := by
          rw [h] at htr; simp only [List.cons.injEq] at htr; exact htr.2
        have hch := chain_inv hs sg (hq ▸ hb)
        rw [hq, ho] at hch
        rcases change_step hm sg with ⟨_, _, _, h4⟩ | ⟨t, k, _, h2⟩ | ⟨t, p, k, rest, he, h'⟩ | ⟨t, a, h1, h2⟩
        · exfalso
          by_cases hin : (t, Ev.save sg c a) ∈ s.g.tr
          · -- a second time, by the same call
            have h1 := hi.scripted c
            have hi' := inv_step hi hm
            obtain ⟨v, sc, hsc, hpre⟩ := hi'.scripted c
            rw [htr, hq.symm] at hpre
            have hcount : (ofCall c ((t, Ev.save sg c a) :: s.g.tr)).countP
                (fun x => match x.2 with | .save s' _ _ => s' == sg | _ => false) ≤ 1 := by
              refine Nat.le_trans (hpre.sublist.countP_le) ?_
              cases hsc with
              | parent cb => cases cb <;> cases sg <;> simp [opening, closing, ifCb]
              | failed cb => cases cb <;> cases sg <;> simp [opening, closing, ifCb]
              | child cb => cases cb <;> cases sg <;> simp [opening, closing, ifCb]
            rw [ofCall_same rfl, List.countP_append] at hcount
            have : 0 < (ofCall c s.g.tr).countP
                (fun x => match x.2 with | .save s' _ _ => s' == sg | _ => false) :=
              List.countP_pos_iff.mpr ⟨_, mem_ofCall hin rfl, by simp⟩
            simp only [List.countP_singleton, beq_self_eq_true, if_true] at hcount
            omega
          · exact h4 _ (htr ▸ List.mem_cons_self) hin c a rfl
        · rw [htr] at h2
          simp only [List.cons.injEq, Prod.mk.injEq, Ev.save.injEq, true_and] at h2
          rw [h2.1.2.2]; exact hch
        · exfalso
          rcases h' with ⟨_, _, _, h2⟩ | ⟨_, _, _, h2⟩ <;> rw [htr] at h2 <;> simp at h2
        · exfalso; rw [htr] at h2; simp at h2

/-! ### The masks -/

/-- The mask that a call expects to run with, once it has blocked SIGCHLD. -/
def want (k : K) : Pc → Option Mask
  | .frk | .wait | .rs1 | .rs2 | .rs3 | .ch1 | .ch2 | .ch3 => some (addChld k.om)
  | .exc | .post => some k.om
  | .out => if k.cb then none else some k.om
  | _ => none

/-- The frames get the masks they expect if the innermost runs with mask `m` (if known). -/
def MaskOk : Option Mask → List Frame → Prop
  | _, [] => True
  | _, .app :: r => MaskOk none r
  | _, .sigret m :: r => MaskOk (some m) r
  | m, .sys p k :: r => (∀ w, want k p = some w → m = some w) ∧ MaskOk none r

theorem maskOk_mono {m : Option Mask} {l : List Frame} (h : MaskOk none l) : MaskOk m l := by
  cases l with
  | nil => trivial
  | cons f r =>
    cases f with
    | app => exact h
    | sigret w => exact h
    | sys p k => exact ⟨fun w hw => absurd (h.1 w hw) (by simp), h.2⟩

theorem maskOk_drop {m : Option Mask} {l : List Frame} (h : MaskOk m l) (n : Nat) :
    ∃ m', MaskOk m' (l.drop n) := by
  induction n generalizing l m with
  | zero => exact ⟨m, h⟩
  | succ n ih =>
    cases l with
    | nil => exact ⟨none, trivial⟩
    | cons f r =>
      cases f with
      | app => exact ih (m := none) h
      | sigret w => exact ih (m := some w) h
      | sys p k => exact ih (m := none) h.2

theorem maskOk_landing {m m' : Option Mask} {l : List Frame} (h : MaskOk m l) (hl : landing l = true) :
    MaskOk m' l := by
  cases l with
  | nil => trivial
  | cons f r => cases f <;> first | exact h | simp [landing] at hl

theorem mask_inv {A : S → Lbl → Prop} {a0 : Sg → Act} {m0 : Tid → Mask} {s : S} (hs : ReachA A a0 m0 s)
    (t : Tid) : MaskOk (some (s.g.mask t)) (s.th t) := by
  induction hs generalizing t with
  | init => exact trivial
  | @next s s' l hs ha hn ih =>
    have hm := (move_of_next hn).2
    cases hm with
    | @frame u v f rest r he hne hf =>
      have iht := ih u
      rw [he] at iht
      cases f with
      | app =>
        simp only [fstep, Option.some.injEq] at hf; subst hf
        by_cases ht : t = u
        · subst ht; simp only [setTh_same]; exact maskOk_mono iht
        · simp only [setTh_other ht]; exact ih t
      | sigret m =>
        simp only [fstep, Option.some.injEq] at hf; subst hf
        by_cases ht : t = u
        · subst ht; simp only [setTh_same, G.setMask, if_true]; exact iht
        · simp only [setTh_other ht]; simpa [G.setMask, ht] using ih t
      | sys p k =>
        simp only [fstep] at hf
        by_cases ht : t = u
        · subst ht
          simp only [setTh_same]
          have hr := iht.2
          have h1 := iht.1
          cases p <;> simp only [sstep] at hf
          case frk =>
            split at hf
            · simp at hf
            split at hf <;> simp only [Option.some.injEq] at hf <;> subst hf <;>
              exact ⟨h1, hr⟩
          case pre =>
            split at hf <;> simp only [Option.some.injEq] at hf <;> subst hf <;>
              exact ⟨fun w hw => by simp [want] at hw, hr⟩
          case post =>
            split at hf <;> rename_i hcb <;> simp only [Option.some.injEq] at hf <;> subst hf
            · exact ⟨fun w hw => by simp [want, hcb] at hw, hr⟩
            · exact ⟨fun w hw => h1 w (by simpa [want, hcb] using hw), hr⟩
          case exc =>
            split at hf <;> simp only [Option.some.injEq] at hf <;> subst hf
            · exact maskOk_mono hr
            · exact ⟨fun w hw => by simp [want] at hw, hr⟩
          case out | ex127 =>
            simp only [Option.some.injEq] at hf; subst hf
            exact maskOk_mono hr
          case blk | ch3 | rs3 =>
            simp only [Option.some.injEq] at hf; subst hf
            refine ⟨fun w hw => ?_, hr⟩
            simp only [want, Option.some.injEq] at hw
            subst hw; simp [G.setMask]
          all_goals
            simp only [Option.some.injEq] at hf; subst hf
            first
              | exact ⟨h1, hr⟩
              | exact ⟨fun w hw => by simp [want] at hw, hr⟩
        · simp only [setTh_other ht]
          have hmask : r.1.mask t = s.g.mask t := by
            cases p <;> simp only [sstep] at hf
            case frk =>
              split at hf
              · simp at hf
              split at hf <;> simp only [Option.some.injEq] at hf <;> subst hf <;> rfl
            case pre | post | exc =>
              split at hf <;> simp only [Option.some.injEq] at hf <;> subst hf <;> rfl
            all_goals
              simp only [Option.some.injEq] at hf; subst hf
              simp [G.log, G.setMask, G.setAct, ht]
          rw [hmask]; exact ih t
    | eintr => exact ih t
    | @system u cb rest he =>
      by_cases ht : t = u
      · subst ht
        simp only [setTh_same]
        have := ih t
        rw [he] at this
        exact ⟨fun w hw => by simp [want] at hw, this⟩
      · simp only [setTh_other ht]; exact ih t
    | appSet => exact ih t
    | @appMask u m rest he =>
      by_cases ht : t = u
      · subst ht
        have := ih t
        rw [he] at this ⊢
        exact this
      · simpa [G.setMask, ht] using ih t
    | @fork u rest he =>
      simp only [only]
      split
      · rename_i ht; subst ht
        have := ih t
        rw [he] at this; exact this
      · exact trivial
    | @interrupt u ex hne =>
      by_cases ht : t = u
      · subst ht
        simp only [setTh_same]
        exact ih t
      · simp only [setTh_other ht]; simpa [G.setMask, ht] using ih t
    | @unwind u n m hl =>
      by_cases ht : t = u
      · subst ht
        simp only [setTh_same]
        obtain ⟨m', h⟩ := maskOk_drop (ih t) n
        exact maskOk_landing h hl
      · simp only [setTh_other ht]; simpa [G.setMask, ht] using ih t
    | @child u k rest he =>
      simp only [only]
      split
      · rename_i ht; subst ht
        have := ih t
        rw [he] at this; exact this
      · exact trivial

/-! ### Children of system() -/

/-- The action of `sg` after the frame is over, if it is `a` now. -/
def undo (sg : Sg) : Frame → Act → Act
  | .sys p k, a =>
    match sg, p with
    | .int, .sv2 | .int, .blk | .int, .frk | .int, .wait | .int, .rs1 | .int, .ch1 => k.oi
    | .quit, .blk | .quit, .frk | .quit, .wait | .quit, .rs1 | .quit, .rs2 | .quit, .ch1 | .quit, .ch2 => k.oq
    | _, _ => a
  | _, a => a

def undoAll (sg : Sg) : List Frame → Act → Act
  | [], a => a
  | f :: r, a => undoAll sg r (undo sg f a)

/-- The action that a child expects to run with, once it has restored it. -/
def wantAct (sg : Sg) (k : K) : Pc → Option Act
  | .ch2 => match sg with | .int => some k.oi | .quit => none
  | .ch3 | .exc => match sg with | .int => some k.oi | .quit => some k.oq
  | _ => none

/-- The frames get the actions they expect. -/
def ActOk (sg : Sg) : Act → List Frame → Prop
  | _, [] => True
  | a, f :: r => (∀ p k, f = .sys p k → ∀ w, wantAct sg k p = some w → a = w) ∧ ActOk sg (undo sg f a) r

theorem fstep_undo {g : G} {t : Tid} {v : Int} {f : Frame} {r : G × List Frame}
    (hf : fstep g t v f = some r) (sg : Sg) : undoAll sg r.2 (r.1.act sg) = undo sg f (g.act sg) ∧
      ActOk sg (r.1.act sg) r.2 ∨ (∃ p k w, f = .sys p k ∧ wantAct sg k p = some w ∧ g.act sg ≠ w) := by
  cases f with
  | app => simp only [fstep, Option.some.injEq] at hf; subst hf; exact .inl ⟨rfl, trivial⟩
  | sigret m => simp only [fstep, Option.some.injEq] at hf; subst hf; exact .inl ⟨rfl, trivial⟩
  | sys p k =>
    by_cases hw : ∃ w, wantAct sg k p = some w ∧ g.act sg ≠ w
    · obtain ⟨w, h1, h2⟩ := hw; exact .inr ⟨p, k, w, rfl, h1, h2⟩
    · left
      have hw : ∀ w, wantAct sg k p = some w → g.act sg = w := fun w h => by
        by_cases h' : g.act sg = w
        · exact h'
        · exact absurd ⟨w, h, h'⟩ hw
      simp only [fstep] at hf
      cases p <;> simp only [sstep] at hf
      case frk =>
        split at hf
        · simp at hf
        split at hf <;> simp only [Option.some.injEq] at hf <;> subst hf <;> cases sg <;>
          simp [undoAll, undo, ActOk, wantAct, G.log]
      case pre | post | exc =>
        split at hf <;> simp only [Option.some.injEq] at hf <;> subst hf <;> cases sg <;>
          simp [undoAll, undo, ActOk, wantAct, G.log]
      all_goals
        simp only [Option.some.injEq] at hf; subst hf
        cases sg <;> simp [wantAct] at hw <;>
          simp [undoAll, undo, ActOk, wantAct, G.log, G.setAct, G.setMask, hw]

theorem actOk_append {sg : Sg} {a : Act} {l r : List Frame} :
    ActOk sg a (l ++ r) ↔ ActOk sg a l ∧ ActOk sg (undoAll sg l a) r := by
  induction l generalizing a with
  | nil => simp [ActOk, undoAll]
  | cons f l ih => simp only [List.cons_append, ActOk, undoAll, ih, and_assoc]

theorem actOk_none {sg : Sg} {a : Act} {l : List Frame} (h : ∀ f ∈ l, f.inChild = false) : ActOk sg a l := by
  induction l generalizing a with
  | nil => trivial
  | cons f l ih =>
    refine ⟨fun p k hf w hw => ?_, ih fun x hx => h x (List.mem_cons_of_mem _ hx)⟩
    have := h f List.mem_cons_self
    subst hf
    cases p <;> simp [Frame.inChild] at this <;> cases sg <;> simp [wantAct] at hw

/-- A child made by system() has one thread, and the actions are as they should be. -/
structure Solo (s : S) : Prop where
  alone : ∀ t, (∃ f ∈ s.th t, f.inChild = true) → ∀ u, u ≠ t → s.th u = []
  acts : ∀ t sg, ActOk sg (s.g.act sg) (s.th t)

theorem not_child {l : List Frame} (h : ¬ ∃ f ∈ l, f.inChild = true) : ∀ f ∈ l, f.inChild = false := by
  intro f hf
  cases hc : f.inChild
  · rfl
  · exact absurd ⟨f, hf, hc⟩ h

theorem fstep_child {g : G} {t : Tid} {v : Int} {f : Frame} {r : G × List Frame}
    (hf : fstep g t v f = some r) (h : ∃ x ∈ r.2, x.inChild = true) : f.inChild = true := by
  cases f with
  | app => simp only [fstep, Option.some.injEq] at hf; subst hf; simp at h
  | sigret m => simp only [fstep, Option.some.injEq] at hf; subst hf; simp at h
  | sys p k =>
    simp only [fstep] at hf
    cases p <;> simp only [sstep] at hf
    case frk =>
      split at hf
      · simp at hf
      split at hf <;> simp only [Option.some.injEq] at hf <;> subst hf <;> simp [Frame.inChild] at h
    case pre | post =>
      split at hf <;> simp only [Option.some.injEq] at hf <;> subst hf <;> simp [Frame.inChild] at h
    all_goals first | rfl | (simp only [Option.some.injEq] at hf; subst hf; simp [Frame.inChild] at h)

theorem solo_inv {A : S → Lbl → Prop} (hA : ∀ s l, A s l → Still s l) {a0 : Sg → Act} {m0 : Tid → Mask}
    {s : S} (hs : ReachA A a0 m0 s) : Solo s := by
  induction hs with
  | init => exact ⟨fun t h => by simp [Frame.inChild] at h, fun t sg => actOk_none (by simp [Frame.inChild])⟩
  | @next s s' l hs ha hn ih =>
    have hm := (move_of_next hn).2
    have hst := hA _ _ ha
    -- one thread changes, which has frames before
    have one : ∀ (t : Tid) (l' : List Frame) (g' : G), s.th t ≠ [] →
        ((∃ f ∈ l', f.inChild = true) → ∃ f ∈ s.th t, f.inChild = true) →
        (∀ sg, ActOk sg (g'.act sg) l') → Solo { g := g', th := setTh s.th t l' } := by
      intro t l' g' hne hc hact
      refine ⟨fun u hu w hw => ?_, fun u sg => ?_⟩
      · by_cases hut : u = t
        · subst hut
          simp only [setTh_same] at hu
          simp only [setTh_other hw]
          exact ih.alone u (hc hu) w hw
        · simp only [setTh_other hut] at hu
          exact absurd (ih.alone u hu t (Ne.symm hut)) hne
      · by_cases hut : u = t
        · subst hut; simp only [setTh_same]; exact hact sg
        · simp only [setTh_other hut]
          refine actOk_none (not_child fun h => hne (ih.alone u h t (Ne.symm hut)))
    cases hm with
    | @frame t v f rest r he hne hf =>
      refine one t _ _ (by simp [he]) (fun h => ?_) fun sg => ?_
      · obtain ⟨x, hx, hxc⟩ := h
        rcases List.mem_append.mp hx with hx | hx
        · exact ⟨f, by simp [he], fstep_child hf ⟨x, hx, hxc⟩⟩
        · exact ⟨x, by simp [he, hx], hxc⟩
      · have hok := ih.acts t sg
        rw [he] at hok
        rcases fstep_undo hf sg with ⟨h1, h2⟩ | ⟨p, k, w, h1, h2, h3⟩
        · rw [actOk_append, h1]
          exact ⟨h2, hok.2⟩
        · exact absurd (hok.1 p k h1 w h2) h3
    | eintr => exact ih
    | @system t cb rest he =>
      refine one t _ _ (by simp [he]) (fun h => ?_) fun sg => ?_
      · obtain ⟨x, hx, hxc⟩ := h
        rcases List.mem_cons.mp hx with rfl | hx
        · simp [Frame.inChild] at hxc
        · exact ⟨x, by rw [he]; exact hx, hxc⟩
      · have hok := ih.acts t sg
        rw [he] at hok
        exact ⟨fun p k hf w hw => by cases hf; simp [wantAct] at hw, by cases sg <;> exact hok⟩
    | @appSet t sg a rest he =>
      refine ⟨ih.alone, fun u sg' => ?_⟩
      refine actOk_none ?_
      by_cases hut : u = t
      · subst hut; exact hst
      · exact not_child fun h => by
          have := ih.alone u h t (Ne.symm hut)
          simp [he] at this
    | appMask => exact ⟨ih.alone, ih.acts⟩
    | @fork t rest he =>
      refine ⟨fun u hu w hw => ?_, fun u sg => ?_⟩
      · simp only [only] at hu ⊢
        by_cases hut : u = t
        · subst hut; simp [hw]
        · simp [hut] at hu
      · simp only [only]
        split
        · rename_i hut; subst hut; rw [← he]; exact ih.acts u sg
        · trivial
    | @interrupt t ex hne =>
      refine one t _ _ hne (fun h => ?_) fun sg => ?_
      · obtain ⟨x, hx, hxc⟩ := h
        simp only [List.mem_cons] at hx
        rcases hx with rfl | rfl | hx
        · simp [Frame.inChild] at hxc
        · simp [Frame.inChild] at hxc
        · exact ⟨x, hx, hxc⟩
      · exact ⟨by simp, by simp, ih.acts t sg⟩
    | @unwind t n m hl =>
      by_cases hne : s.th t = []
      · refine ⟨fun u hu w hw => ?_, fun u sg => ?_⟩
        · by_cases hut : u = t
          · subst hut; simp [setTh_same, hne] at hu
          · simp only [setTh_other hut] at hu
            by_cases hwt : w = t
            · subst hwt; simp [setTh_same, hne]
            · simp only [setTh_other hwt]; exact ih.alone u hu w hw
        · by_cases hut : u = t
          · subst hut; simp [setTh_same, hne, ActOk]
          · simp only [setTh_other hut]; exact ih.acts u sg
      · refine one t _ _ hne (fun h => ?_) fun sg => ?_
        · obtain ⟨x, hx, hxc⟩ := h
          exact ⟨x, List.mem_of_mem_drop hx, hxc⟩
        · exact actOk_none fun f hf => hst f (List.mem_of_mem_drop hf)
    | @child t k rest he =>
      refine ⟨fun u hu w hw => ?_, fun u sg => ?_⟩
      · simp only [only] at hu ⊢
        by_cases hut : u = t
        · subst hut; simp [hw]
        · simp [hut] at hu
      · simp only [only]
        split
        · rename_i hut; subst hut
          have hok := ih.acts u sg
          rw [he] at hok
          exact ⟨fun p k hf w hw => by cases hf; simp [wantAct] at hw, by cases sg <;> exact hok.2⟩
        · trivial

/-- When the shell is started. -/
theorem exec_step {s s' : S} {l : Lbl} (hm : Move s l s') {t : Tid} {c : Nat} {cb : Bool} {ai aq : Act}
    {m : Mask} (h : (t, Ev.exec c cb ai aq m) ∈ s'.g.tr) :
    (t, Ev.exec c cb ai aq m) ∈ s.g.tr ∨ ∃ k rest, s.th t = .sys .exc k :: rest ∧ k.c = c ∧
      s.g.act .int = ai ∧ s.g.act .quit = aq ∧ s.g.mask t = m := by
  cases hm with
  | @frame u v f rest r he hne hf =>
    cases f with
    | app => simp only [fstep, Option.some.injEq] at hf; subst hf; exact .inl h
    | sigret w => simp only [fstep, Option.some.injEq] at hf; subst hf; exact .inl h
    | sys p k =>
      simp only [fstep] at hf
      cases p <;> simp only [sstep] at hf
      case frk =>
        split at hf
        · simp at hf
        split at hf <;> simp only [Option.some.injEq] at hf <;> subst hf <;>
          simp [G.log] at h <;> exact .inl h
      case pre | post =>
        split at hf <;> simp only [Option.some.injEq] at hf <;> subst hf <;>
          simp [G.log] at h <;> exact .inl h
      case exc =>
        have : (t, Ev.exec c cb ai aq m) ∈
            (u, Ev.exec k.c k.cb (s.g.act .int) (s.g.act .quit) (s.g.mask u)) :: s.g.tr := by
          split at hf <;> simp only [Option.some.injEq] at hf <;> subst hf <;> exact h
        rcases List.mem_cons.mp this with h | h
        · simp only [Prod.mk.injEq, Ev.exec.injEq] at h
          obtain ⟨rfl, rfl, rfl, rfl, rfl, rfl⟩ := h
          exact .inr ⟨k, rest, he, rfl, rfl, rfl, rfl⟩
        · exact .inl h
      all_goals
        simp only [Option.some.injEq] at hf; subst hf
        simp [G.log, G.setAct, G.setMask] at h
        exact .inl h
  | eintr => exact .inl h
  | system => simp [G.log] at h; exact .inl h
  | appSet => simp [G.log, G.setAct] at h; exact .inl h
  | appMask => exact .inl h
  | fork => simp [G.log] at h; exact .inl h
  | interrupt => exact .inl h
  | unwind => exact .inl h
  | child => simp [G.log] at h; exact .inl h

/-- What a call that is about to start the shell has found. -/
theorem found {s : S} (hi : Inv s) {t : Tid} {k : K} {rest : List Frame} (he : s.th t = .sys .exc k :: rest) :
    (t, Ev.save .int k.c k.oi) ∈ s.g.tr ∧ (t, Ev.save .quit k.c k.oq) ∈ s.g.tr ∧
      (t, Ev.blocked k.c k.om) ∈ s.g.tr := by
  have ht := (hi.told t .exc k (by simp [he])).2
  simp only [reduceCtorEq, if_false] at ht
  refine ⟨of_mem_ofCall (c := k.c) ?_, of_mem_ofCall (c := k.c) ?_, of_mem_ofCall (c := k.c) ?_⟩ <;>
    rw [ht] <;> simp [path, opening]

/-- A child made by system() stays inside. -/
theorem born_inv {A : S → Lbl → Prop} (hA : ∀ s l, A s l → Still s l) {a0 : Sg → Act} {m0 : Tid → Mask}
    {s : S} (hs : ReachA A a0 m0 s) {t : Tid} {c : Nat} (h : (t, Ev.born c) ∈ s.g.tr) :
    s.g.dead = true ∨ ∃ f ∈ s.th t, f.inChild = true ∧ f.id = some c := by
  induction hs with
  | init => simp at h
  | @next s s' l hs ha hn ih =>
    obtain ⟨hd, hm⟩ := move_of_next hn
    have hst := hA _ _ ha
    have hi := inv_of hs
    have hsolo := solo_inv hA hs
    -- the frames were there before
    have old : (t, Ev.born c) ∈ s.g.tr → ∃ f ∈ s.th t, f.inChild = true ∧ f.id = some c := fun h => by
      rcases ih h with h | h
      · rw [hd] at h; cases h
      · exact h
    have keep : ∀ (u : Tid) (l' : List Frame), (∀ f ∈ s.th u, f.inChild = true → f ∈ l') →
        (t, Ev.born c) ∈ s.g.tr → ∃ f ∈ setTh s.th u l' t, f.inChild = true ∧ f.id = some c := by
      intro u l' hsub h
      obtain ⟨f, hf, h1, h2⟩ := old h
      by_cases ht : t = u
      · subst ht; exact ⟨f, by rw [setTh_same]; exact hsub f hf h1, h1, h2⟩
      · exact ⟨f, by rw [setTh_other ht]; exact hf, h1, h2⟩
    cases hm with
    | @frame u v f rest r he hne hf =>
      have hrest : ∀ fs, (f.inChild = true → ∃ g ∈ fs, g.inChild = true ∧ g.id = f.id) →
          (t, Ev.born c) ∈ s.g.tr → ∃ f ∈ setTh s.th u (fs ++ rest) t, f.inChild = true ∧ f.id = some c := by
        intro fs hfs h
        obtain ⟨f', hf', h1, h2⟩ := old h
        by_cases ht : t = u
        · subst ht
          rw [setTh_same]
          rw [he] at hf'
          rcases List.mem_cons.mp hf' with rfl | hf'
          · obtain ⟨x, hx, h3, h4⟩ := hfs h1
            exact ⟨x, List.mem_append_left _ hx, h3, h4.trans h2⟩
          · exact ⟨f', List.mem_append_right _ hf', h1, h2⟩
        · exact ⟨f', by rw [setTh_other ht]; exact hf', h1, h2⟩
      cases f with
      | app =>
        simp only [fstep, Option.some.injEq] at hf; subst hf
        exact .inr (hrest _ (by simp [Frame.inChild]) h)
      | sigret m =>
        simp only [fstep, Option.some.injEq] at hf; subst hf
        exact .inr (hrest _ (by simp [Frame.inChild]) h)
      | sys p k =>
        simp only [fstep] at hf
        cases p <;> simp only [sstep] at hf
        case frk =>
          split at hf
          · simp at hf
          split at hf <;> simp only [Option.some.injEq] at hf <;> subst hf <;>
            simp [G.log] at h <;> exact .inr (hrest _ (by simp [Frame.inChild]) h)
        case pre | post =>
          split at hf <;> simp only [Option.some.injEq] at hf <;> subst hf <;>
            simp [G.log] at h <;> exact .inr (hrest _ (by simp [Frame.inChild]) h)
        case exc =>
          split at hf <;> simp only [Option.some.injEq] at hf <;> subst hf
          · exact .inl rfl
          · simp [G.log] at h
            exact .inr (hrest _ (by simp [Frame.inChild, Frame.id]) h)
        case ex127 =>
          simp only [Option.some.injEq] at hf; subst hf
          exact .inl rfl
        all_goals
          simp only [Option.some.injEq] at hf; subst hf
          simp [G.log, G.setAct, G.setMask] at h
          exact .inr (hrest _ (by simp [Frame.inChild, Frame.id]) h)
    | eintr => exact .inr (old h)
    | @system u cb rest he =>
      simp [G.log] at h
      exact .inr (keep u _ (fun f hf _ => by rw [he] at hf; exact List.mem_cons_of_mem _ hf) h)
    | appSet => simp [G.log, G.setAct] at h; exact .inr (old h)
    | appMask => exact .inr (old h)
    | @fork u rest he =>
      simp [G.log] at h
      obtain ⟨f, hf, h1, h2⟩ := old h
      by_cases ht : t = u
      · subst ht
        exact .inr ⟨f, by simp only [only, if_true]; rw [← he]; exact hf, h1, h2⟩
      · have := hsolo.alone t ⟨f, hf, h1⟩ u (Ne.symm ht)
        simp [he] at this
    | @interrupt u ex hne =>
      exact .inr (keep u _ (fun f hf _ => List.mem_cons_of_mem _ (List.mem_cons_of_mem _ hf)) h)
    | @unwind u n m hl =>
      exact .inr (keep u _ (fun f hf hc => by rw [hst f hf] at hc; cases hc) h)
    | @child u k rest he =>
      simp only [G.log] at h
      rcases List.mem_cons.mp h with h | h
      · simp only [Prod.mk.injEq, Ev.born.injEq] at h
        obtain ⟨rfl, rfl⟩ := h
        exact .inr ⟨.sys .ch1 k, by simp [only], rfl, rfl⟩
      · obtain ⟨f, hf, h1, h2⟩ := old h
        by_cases ht : t = u
        · subst ht
          refine .inr ⟨f, ?_, h1, h2⟩
          simp only [only, if_true]
          rw [he] at hf
          rcases List.mem_cons.mp hf with rfl | hf
          · simp [Frame.inChild] at h1
          · exact List.mem_cons_of_mem _ hf
        · have := hsolo.alone t ⟨f, hf, h1⟩ u (Ne.symm ht)
          simp [he] at this

end Libmonitor.SysC
