import Verif.Proc.SpecSupport
import Verif.Proc.OwnTsd
import Verif.Proc.ChildExit
/-!
# monitor_is_threaded: helper lemmas
-/

namespace Libmonitor.Proc

theorem clean_of_ask {s : S} (hs : ReachA CleanAsk s) : ReachA Clean s := by
  induction hs with
  | init => exact .init
  | next _ hA hn ih => exact .next ih hA.1 hn

/-- After the reset of the thread list the flag is clear. -/
theorem reset_used {g g' : G} {t : Tid} {ok : Bool} {v : Nat} {f : Frame} {nx : Next}
    {sp : Option Frame} (hr : f.resetting = true) (hb : born g.tr = true)
    (h : fstep g t ok v f = some (g', nx, sp)) (hb' : born g'.tr = false) :
    g'.hasUsed = false ∧ ∀ u c st ar, (u, .createCall c st ar) ∉ own g'.tr := by
  have hown : own g.tr = [] := by
    cases e : g.tr with
    | nil => rfl
    | cons x xs =>
      rw [e] at hb
      have hb : x.2.isForked = true := hb
      simp [own, hb]
  have hres : (resetList g t).hasUsed = false := by
    unfold resetList
    split
    · rfl
    · rename_i hu; simpa using hu
  cases f <;> first | (simp [Frame.resetting] at hr; done) | skip
  all_goals fstep_cases h
  all_goals first
    | (rw [hb] at hb'; cases hb'; done)
    | skip
  all_goals (refine ⟨hres, fun u c st ar hm => ?_⟩; simp [G.emit, G.upd, own, Ev.isForked, hown] at hm)

theorem used_fstep {g g' : G} {t : Tid} {ok : Bool} {v : Nat} {f : Frame} {nx : Next}
    {sp : Option Frame} (hr : f.resetting = false) (h : fstep g t ok v f = some (g', nx, sp)) :
    (g.hasUsed = true → g'.hasUsed = true) ∧
    (g'.hasUsed = true → g.hasUsed = true ∨ ∃ st ar l, f = .pc1 st ar ∧ nx = .go l ∧ .pc2 st ar ∈ l) := by
  cases f <;> first | (simp [Frame.resetting] at hr; done) | skip
  all_goals fstep_cases h
  all_goals first
    | exact ⟨fun h => h, fun h => Or.inl h⟩
    | exact ⟨fun _ => rfl, fun _ => Or.inr ⟨_, _, _, rfl, rfl, List.mem_cons_self⟩⟩
    | skip

theorem call_fstep {g g' : G} {t : Tid} {ok : Bool} {v : Nat} {f : Frame} {nx : Next}
    {sp : Option Frame} (h : fstep g t ok v f = some (g', nx, sp)) {u : Tid} {c st ar : Nat}
    (hm : (u, .createCall c st ar) ∈ own g'.tr) :
    (u, .createCall c st ar) ∈ own g.tr ∨ f.isPc2 = true := by
  cases f <;> first | exact Or.inr rfl | skip
  all_goals fstep_cases h
  all_goals first
    | exact Or.inl hm
    | (simp [G.emit, G.upd, own, Ev.isForked] at hm; exact Or.inl hm)

/-- Once pthread_create was called the flag is set. -/
theorem used_of_call {s : S} (hs : ReachA Clean s) (hb : born s.g.tr = false) {u : Tid} {c st ar : Nat}
    (hm : (u, .createCall c st ar) ∈ own s.g.tr) : s.g.hasUsed = true := by
  refine glob_inv (A := Clean) (GI := fun g => born g.tr = false →
    (∃ u c st ar, (u, Ev.createCall c st ar) ∈ own g.tr) → g.hasUsed = true)
    ?_ ?_ (fun _ h => h) ?_ hs hb ⟨u, c, st, ar, hm⟩
  · rintro _ ⟨u, c, st, ar, h⟩; cases h
  · rintro s t f rest ok v g' nx sp hr hA ht hG h hb' ⟨u, c, st, ar, hm⟩
    have hft : f ∈ s.th t := by rw [ht]; exact List.mem_cons_self
    cases hb : born s.g.tr with
    | true =>
      obtain ⟨_, h2, _⟩ := birth_step hr ht hb
      exact absurd hm ((reset_used h2 hb h hb').2 u c st ar)
    | false =>
      have hnr : f.resetting = false := by
        cases e : f.resetting with
        | false => rfl
        | true => have := ((base_inv hr).2 t f hft).2.1 e; rw [hb] at this; cases this
      rcases call_fstep h hm with hm | hm
      · exact (used_fstep hnr h).1 (hG hb ⟨u, c, st, ar, hm⟩)
      · refine (used_fstep hnr h).1 ?_
        have hmk : f.making = true ∧ f.isPc1 = false := by
          cases f <;> simp_all [Frame.isPc2, Frame.making, Frame.isPc1]
        rcases (((base_inv hr).2 t f hft).2.2.1 hmk.1).1 with e | e
        · rw [hmk.2] at e; cases e
        · exact e
  · rintro s t real hr hG hb
    simp [G.emit, born, Ev.isForked] at hb

/-- The flag is set only when pthread_create was called. -/
theorem creating_of_used {s : S} (hs : ReachA CleanAsk s) (hu : s.g.hasUsed = true)
    (hb : born s.g.tr = false) : creating s := by
  induction hs with
  | init => cases hu
  | @next s s' l hr hA hn ih =>
    have hc := clean_of_ask hr
    have push : ∀ {t : Tid} {f : Frame} {rest l : List Frame}, s.th t = f :: rest →
        (∀ h ∈ f :: rest, h ∈ l) → creating s → creating { s with th := setTh s.th t l } := by
      rintro t f rest l ht hl (h | ⟨u, p, hp, hp2⟩)
      · exact Or.inl h
      · refine Or.inr ⟨u, p, ?_, hp2⟩
        by_cases e : u = t
        · subst e
          rw [ht] at hp
          show p ∈ setTh s.th u l u
          rw [setTh_self]; exact hl p hp
        · show p ∈ setTh s.th t l u
          rw [setTh_ne _ _ e]; exact hp
    have hm := move_of_next hn
    cases hm with
    | @go t f rest ok v r hd ht hf =>
      obtain ⟨g', nx, sp⟩ := r
      have hgu : g'.hasUsed = true := by
        cases nx <;> exact hu
      have hgb : born g'.tr = false := by
        cases nx <;> exact hb
      have htr : (applyRes s t rest (g', nx, sp)).g.tr = g'.tr := by cases nx <;> rfl
      have hft : f ∈ s.th t := by rw [ht]; exact List.mem_cons_self
      cases hb0 : born s.g.tr with
      | true =>
        obtain ⟨_, h2, _⟩ := birth_step hc ht hb0
        rw [(reset_used h2 hb0 hf hgb).1] at hgu; cases hgu
      | false =>
        have hnr : f.resetting = false := by
          cases e : f.resetting with
          | false => rfl
          | true => have := ((base_inv hc).2 t f hft).2.1 e; rw [hb0] at this; cases this
        -- frames of the thread's new stack
        have inNew : ∀ l p, nx = .go l → p ∈ l ++ rest →
            p ∈ (applyRes s t rest (g', nx, sp)).th t := by
          intro l p e hp
          subst e
          show p ∈ setTh _ t (l ++ rest) t
          rw [setTh_self]; exact hp
        rcases (used_fstep hnr hf).2 hgu with hu0 | ⟨st, ar, l, e1, e2, e3⟩
        · rcases ih hu0 hb0 with ⟨u, c, st, ar, hc⟩ | ⟨u, p, hp, hp2⟩
          · refine Or.inl ⟨u, c, st, ar, ?_⟩
            rw [htr]; exact own_mem_fstep hf _ hc
          · by_cases eu : u = t
            · subst eu
              rw [ht] at hp
              rcases List.mem_cons.1 hp with e | hp
              · subst e
                refine Or.inl ⟨u, s.g.nextCall, ?_⟩
                rw [htr]
                cases p <;> first | (simp [Frame.isPc2] at hp2; done) | skip
                rename_i st ar
                refine ⟨st, ar, ?_⟩
                fstep_cases hf <;> simp [G.emit, G.upd, own, Ev.isForked]
              · cases nx with
                | go l => exact Or.inr ⟨u, p, inNew l p rfl (List.mem_append_right _ hp), hp2⟩
                | unwind =>
                  have hA2 := hA.2
                  dsimp only at hA2
                  rw [ht] at hA2
                  have hent : f.enters = true := by
                    cases f <;> fstep_cases hf <;> rfl
                  rw [hA2 f rfl hent p (List.mem_cons_of_mem _ hp)] at hp2; cases hp2
                | die =>
                  rcases fstep_spawn hf with ⟨rfl, _⟩ | ⟨_, _, _, _, e⟩
                  · refine Or.inr ⟨u, p, ?_, hp2⟩
                    show p ∈ s.th u
                    rw [ht]; exact List.mem_cons_of_mem _ hp
                  · cases e
            · refine Or.inr ⟨u, p, ?_, hp2⟩
              have hun : u ≠ s.g.nextTid := by
                intro e
                rw [fresh_inv hr u (by omega)] at hp; cases hp
              rcases fstep_spawn hf with ⟨rfl, _⟩ | ⟨f0, l, rfl, _, rfl⟩
              · cases nx with
                | go l => show p ∈ setTh s.th t _ u; rw [setTh_ne _ _ eu]; exact hp
                | unwind => show p ∈ setTh s.th t _ u; rw [setTh_ne _ _ eu]; exact hp
                | die => exact hp
              · show p ∈ setTh (setTh s.th s.g.nextTid [f0]) t _ u
                rw [setTh_ne _ _ eu, setTh_ne _ _ hun]; exact hp
        · exact Or.inr ⟨t, _, inNew l _ e2 (List.mem_append_left _ e3), rfl⟩
    | @call t f rest a hd ht hf =>
      exact push ht (fun h hm => List.mem_append_right _ hm) (ih hu hb)
    | @deliver t f rest hd ht hon hh =>
      exact push ht (fun h hm => List.mem_cons_of_mem _ hm) (ih hu hb)
    | @interrupt t f rest hd ht =>
      exact push ht (fun h hm => List.mem_cons_of_mem _ hm) (ih hu hb)
    | @unwind t f rest hd ht hf =>
      rcases ih hu hb with h | ⟨u, p, hp, hp2⟩
      · exact Or.inl h
      · by_cases e : u = t
        · subst e
          have := hA.2 p hp
          rw [hp2] at this; cases this
        · refine Or.inr ⟨u, p, ?_, hp2⟩
          show p ∈ setTh s.th t _ u
          rw [setTh_ne _ _ e]; exact hp
    | @fork t c d rest hd ht => simp [G.emit, born, Ev.isForked] at hb
    | @realFork t rest hd ht => simp [G.emit, born, Ev.isForked] at hb

/-- ... and inside pthread_create it is set. -/
theorem used_iff_creating {s : S} (hs : ReachA CleanAsk s) (hb : born s.g.tr = false) :
    s.g.hasUsed = true ↔ creating s := by
  have hc := clean_of_ask hs
  refine ⟨fun h => creating_of_used hs h hb, ?_⟩
  rintro (⟨u, c, st, ar, h⟩ | ⟨u, p, hp, hp2⟩)
  · exact used_of_call hc hb h
  · have hmk : p.making = true ∧ p.isPc1 = false := by
      cases p <;> simp_all [Frame.isPc2, Frame.making, Frame.isPc1]
    rcases (((base_inv hc).2 u p hp).2.2.1 hmk.1).1 with e | e
    · rw [hmk.2] at e; cases e
    · exact e

end Libmonitor.Proc
