import Verif.Wm.Lemmas
/-!
# C67: the invariant holds
-/

namespace Libmonitor.Wm

variable {A : Arch} {prot : Loc → Bool}

/-- Steps that move a thread about outside of the lock. -/
theorem inv_outside {s s' : S} (h : Inv A prot s) (hm : s'.mem = s.mem) (hb : s'.buf = s.buf)
    (h0 : s'.m0 = s.m0) (ht : s'.tr = s.tr) (hp : ∀ t, s'.pc t = s.pc t ∨
      (¬ holds s t ∧ ¬ holds s' t)) : Inv A prot s' := by
  have hh : ∀ t, holds s' t ↔ holds s t := by
    intro t
    rcases hp t with e | ⟨h1, h2⟩
    · simp [holds, e]
    · exact ⟨fun h => absurd h h2, fun h => absurd h h1⟩
  have ho : ∀ t, Owner s' t ↔ Owner s t := by
    intro t; simp only [Owner, hh, hb]
  refine ⟨?_, ?_, ?_, ?_, ?_, ?_, ?_, ?_, ?_⟩
  · intro t u h1 h2; exact h.one t u ((ho t).1 h1) ((ho u).1 h2)
  · intro hf t hw; exact h.free (hm ▸ hf) t ((ho t).1 hw)
  · intro t hw; rw [hb]; exact h.other t fun h => hw ((ho t).2 h)
  · intro t hw; rw [hb]; exact h.inside t ((hh t).1 hw)
  · intro t hr hf
    rw [hb]
    rcases hp t with e | ⟨h1, h2⟩
    · exact h.rel t (e ▸ hr) hf
    · exact absurd (.inr hr) h2
  · intro t; rw [hb]; exact h.pending t
  · intro a ha hl t hw
    have := h.seen a ha hl t ((ho t).1 hw)
    rw [h0, ht, ← this]
    simp only [S.view, hb, hm]
  · intro a ha hl hn
    rw [hm, h0, ht]
    exact h.memory a ha hl fun t h => hn t ((ho t).2 h)
  · rw [ht]; simp only [hh]; exact h.hist

theorem inv_acquire {s : S} (h : Inv A prot s) {t : Tid} (hf : (s.mem LOCK).1 = 0) :
    Inv A prot { (s.setMem LOCK (1, 0)).setPc t .inside with tr := .acq t :: s.tr } := by
  have hno := h.free hf
  have hh : ∀ u, holds { (s.setMem LOCK (1, 0)).setPc t .inside with tr := .acq t :: s.tr } u ↔ u = t := by
    intro u
    have : ¬ holds s u := fun hw => hno u (.inl hw)
    by_cases e : u = t
    · simp [holds, S.setPc, e]
    · simpa [holds, S.setPc, S.setMem, e] using this
  have ho : ∀ u, Owner { (s.setMem LOCK (1, 0)).setPc t .inside with tr := .acq t :: s.tr } u ↔ u = t := by
    intro u
    simp only [Owner, hh]
    constructor
    · rintro (e | hb)
      · exact e
      · exact absurd (.inr hb) (hno u)
    · exact .inl
  refine ⟨?_, ?_, ?_, ?_, ?_, ?_, ?_, ?_, ?_⟩
  · intro a b ha hb; rw [(ho a).1 ha, (ho b).1 hb]
  · intro hz; simp [S.setMem, S.setPc] at hz
  · intro u _; exact h.other u (hno u)
  · intro u _ v n hm; exact hno u (.inr ⟨v, n, hm⟩)
  · intro u hr hfe
    by_cases e : u = t
    · simp [S.setPc, e] at hr
    · simp [S.setPc, S.setMem, e] at hr; exact h.rel u hr hfe
  · intro u; exact h.pending u
  · intro a ha hl u hw
    have hnp := h.other u (hno u)
    have hnone : pend (s.buf u) a = none := by
      refine pend_none fun v n hm => ?_
      have := hnp a v n hm
      rw [ha] at this; simp at this
    have := h.memory a ha hl hno
    simp only [S.view, S.setPc, S.setMem, hnone, hl, ↓reduceIte, Option.getD_none, lastStore]
    exact this
  · intro a ha hl hn; exact absurd ((ho t).2 rfl) (hn t)
  · left
    refine ⟨t, (hh t).2 rfl, ?_⟩
    rcases h.hist with ⟨u, hu, -⟩ | ⟨-, h2⟩
    · exact absurd (.inl hu) (hno u)
    · simp only [open', h2]

theorem inv_load {s : S} (h : Inv A prot s) (e : Ev) (he : ∃ t a v n, e = .load t a v n) :
    Inv A prot { s with tr := e :: s.tr } := by
  obtain ⟨t, a, v, n, rfl⟩ := he
  refine ⟨h.one, h.free, h.other, h.inside, h.rel, h.pending, ?_, ?_, ?_⟩
  · intro b hb hl u hu; exact h.seen b hb hl u hu
  · intro b hb hl hn; exact h.memory b hb hl hn
  · exact h.hist

theorem split_snoc {b pre post : List Ent} {e x : Ent} (h : b ++ [e] = pre ++ x :: post) :
    (post = [] ∧ x = e ∧ pre = b) ∨ ∃ q, post = q ++ [e] ∧ b = pre ++ x :: q := by
  rcases List.append_eq_append_iff.mp h with ⟨c, h1, h2⟩ | ⟨c, h1, h2⟩
  · left
    cases c with
    | nil =>
      simp only [List.nil_append, List.cons.injEq] at h2
      exact ⟨h2.2.symm, h2.1.symm, by simpa using h1⟩
    | cons y c => simp at h2
  · cases c with
    | nil =>
      simp only [List.nil_append, List.cons.injEq] at h2
      exact .inl ⟨h2.2, h2.1, by simpa using h1.symm⟩
    | cons y c =>
      simp only [List.cons_append, List.cons.injEq] at h2
      exact .inr ⟨c, h2.2, by rw [h1, h2.1]⟩

/-- A thread inside appends something that is no store to the lock. -/
theorem inv_unlock {s : S} (h : Inv A prot s) {t : Tid} (hi : s.pc t = .inside) :
    Inv A prot ((if A.fenced then s.setBuf t (s.buf t ++ [.mark]) else s).setPc t .rel) := by
  have ht : holds s t := .inl hi
  generalize hs : (if A.fenced then s.setBuf t (s.buf t ++ [.mark]) else s) = s1
  have hb : ∀ u, s1.buf u = s.buf u ∨ (u = t ∧ s1.buf u = s.buf u ++ [.mark]) := by
    intro u; rw [← hs]; split
    · by_cases e : u = t
      · subst e; right; simp [S.setBuf]
      · left; simp [S.setBuf, e]
    · left; rfl
  have hfb : A.fenced = true → s1.buf t = s.buf t ++ [.mark] := by
    intro hf; rw [← hs]; simp [hf, S.setBuf]
  have hpc : s1.pc = s.pc := by rw [← hs]; split <;> rfl
  have hmem : s1.mem = s.mem := by rw [← hs]; split <;> rfl
  have hm0 : s1.m0 = s.m0 := by rw [← hs]; split <;> rfl
  have htr : s1.tr = s.tr := by rw [← hs]; split <;> rfl
  have hst : ∀ u a v n, Ent.st a v n ∈ s1.buf u ↔ Ent.st a v n ∈ s.buf u := by
    intro u a v n
    rcases hb u with e | ⟨-, e⟩ <;> simp [e]
  have hpend : ∀ u a, pend (s1.buf u) a = pend (s.buf u) a := by
    intro u a
    rcases hb u with e | ⟨-, e⟩
    · rw [e]
    · rw [e, pend_append]; simp [pend]
  have hh : ∀ u, holds (s1.setPc t .rel) u ↔ holds s u := by
    intro u
    by_cases e : u = t
    · subst e; simp only [ht, iff_true]; right; simp [S.setPc]
    · simp [holds, S.setPc, e, hpc]
  have ho : ∀ u, Owner (s1.setPc t .rel) u ↔ Owner s u := by
    intro u; simp only [Owner, hh]; simp only [S.setPc, hst]
  refine ⟨?_, ?_, ?_, ?_, ?_, ?_, ?_, ?_, ?_⟩
  · intro a b ha hb; exact h.one a b ((ho a).1 ha) ((ho b).1 hb)
  · intro hz u hu; exact h.free (by simpa [S.setPc, hmem] using hz) u ((ho u).1 hu)
  · intro u hu a v n hm
    exact h.other u (fun hw => hu ((ho u).2 hw)) a v n ((hst u a v n).1 hm)
  · intro u hu v n hm; exact h.inside u ((hh u).1 hu) v n ((hst u LOCK v n).1 hm)
  · intro u hr hf
    by_cases e : u = t
    · subst e; simp only [S.setPc]; rw [hfb hf]; exact safe_mark _ _
    · have hr' : s.pc u = .rel := by simpa [S.setPc, e, hpc] using hr
      have := h.rel u hr' hf
      rcases hb u with e' | ⟨e', -⟩
      · simp only [S.setPc]; rw [e']; exact this
      · exact absurd e' e
  · intro u pre v n post hbu
    simp only [S.setPc] at hbu
    have : u ≠ t := by
      rintro rfl
      exact h.inside u ht v n ((hst u LOCK v n).1 (by rw [hbu]; simp))
    rcases hb u with e' | ⟨e', -⟩
    · exact h.pending u pre v n post (by rw [← e', hbu])
    · exact absurd e' this
  · intro a ha hl u hu
    have := h.seen a ha hl u ((ho u).1 hu)
    simp only [S.setPc, hm0, htr, ← this, S.view, hpend, hmem]
  · intro a ha hl hn
    simp only [S.setPc, hm0, htr, hmem]
    exact h.memory a ha hl fun u hu => hn u ((ho u).2 hu)
  · simp only [hh]; simp only [S.setPc, htr]; exact h.hist

theorem inv_rel {s : S} (h : Inv A prot s) {t : Tid} (hr : s.pc t = .rel) :
    Inv A prot { (s.setBuf t (s.buf t ++ [.st LOCK 0 0])).setPc t .out with tr := .rel t :: s.tr } := by
  have ht : holds s t := .inr hr
  have hot : Owner s t := .inl ht
  generalize hs : { (s.setBuf t (s.buf t ++ [.st LOCK 0 0])).setPc t .out with tr := .rel t :: s.tr } = s1
  have hbt : s1.buf t = s.buf t ++ [.st LOCK 0 0] := by rw [← hs]; simp [S.setBuf, S.setPc]
  have hbu : ∀ u, u ≠ t → s1.buf u = s.buf u := by intro u e; rw [← hs]; simp [S.setBuf, S.setPc, e]
  have hmem : s1.mem = s.mem := by rw [← hs]; rfl
  have hm0 : s1.m0 = s.m0 := by rw [← hs]; rfl
  have htr : s1.tr = .rel t :: s.tr := by rw [← hs]
  have hpct : s1.pc t = .out := by rw [← hs]; simp [S.setPc]
  have hpcu : ∀ u, u ≠ t → s1.pc u = s.pc u := by intro u e; rw [← hs]; simp [S.setBuf, S.setPc, e]
  have hnh : ∀ u, ¬ holds s1 u := by
    intro u hu
    by_cases e : u = t
    · subst e; rcases hu with hu | hu <;> rw [hpct] at hu <;> simp at hu
    · have : holds s u := by simpa [holds, hpcu u e] using hu
      exact e (h.one u t (.inl this) hot)
  have ho : ∀ u, Owner s1 u ↔ u = t := by
    intro u
    constructor
    · rintro (hu | ⟨v, n, hm⟩)
      · exact absurd hu (hnh u)
      · by_cases e : u = t
        · exact e
        · rw [hbu u e] at hm
          exact h.one u t (.inr ⟨v, n, hm⟩) hot
    · rintro rfl; exact .inr ⟨0, 0, by rw [hbt]; simp⟩
  refine ⟨?_, ?_, ?_, ?_, ?_, ?_, ?_, ?_, ?_⟩
  · intro a b ha hb; rw [(ho a).1 ha, (ho b).1 hb]
  · intro hz u hu; rw [hmem] at hz; exact absurd hot (h.free hz t)
  · intro u hu
    have e : u ≠ t := fun e => hu ((ho u).2 e)
    rw [hbu u e]
    exact h.other u fun hw => e (h.one u t hw hot)
  · intro u hu; exact absurd hu (hnh u)
  · intro u hr; exact absurd (.inr hr) (hnh u)
  · intro u pre v n post hb
    have e : u = t := (ho u).1 (.inr ⟨v, n, by rw [hb]; simp⟩)
    subst e
    rw [hbt] at hb
    rcases split_snoc hb with ⟨rfl, h2, rfl⟩ | ⟨q, rfl, h2⟩
    · cases h2
      exact ⟨rfl, by intro a v n hm; simp at hm, h.inside u ht, by simp, h.rel u hr⟩
    · exact absurd (by rw [h2]; simp) (h.inside u ht v n)
  · intro a ha hl u hu
    have e := (ho u).1 hu
    subst e
    have := h.seen a ha hl u hot
    have hl' : ¬ LOCK = a := fun e => hl e.symm
    rw [hm0, htr]
    simp only [lastStore, ← this, S.view, hbt, hmem, pend_append, pend, hl', ↓reduceIte, Option.none_or]
  · intro a ha hl hn; exact absurd ((ho t).2 rfl) (hn t)
  · right
    refine ⟨hnh, ?_⟩
    rw [htr]
    rcases h.hist with ⟨u, hu, h2⟩ | ⟨h2, -⟩
    · have : u = t := h.one u t (.inl hu) hot
      subst this
      simp [open', h2]
    · exact absurd ht (h2 t)

theorem inv_store {s : S} (h : Inv A prot s) {t : Tid} {a : Loc} {v : Val} {k : Nat}
    (hl : a ≠ LOCK) (hi : prot a = true → s.pc t = .inside) :
    Inv A prot { s.setBuf t (s.buf t ++ [.st a v k]) with
        clock := k, tr := .store t a v k :: s.tr } := by
  generalize hs : ({ s.setBuf t (s.buf t ++ [.st a v k]) with
        clock := k, tr := .store t a v k :: s.tr } : S) = s1
  have hbt : s1.buf t = s.buf t ++ [.st a v k] := by rw [← hs]; simp [S.setBuf]
  have hbu : ∀ u, u ≠ t → s1.buf u = s.buf u := by intro u e; rw [← hs]; simp [S.setBuf, e]
  have hmem : s1.mem = s.mem := by rw [← hs]; rfl
  have hm0 : s1.m0 = s.m0 := by rw [← hs]; rfl
  have htr : s1.tr = .store t a v k :: s.tr := by rw [← hs]
  have hpc : s1.pc = s.pc := by rw [← hs]; rfl
  have hlk : ∀ u w n, Ent.st LOCK w n ∈ s1.buf u ↔ Ent.st LOCK w n ∈ s.buf u := by
    intro u w n
    by_cases e : u = t
    · subst e; rw [hbt]
      simp only [List.mem_append, List.mem_singleton, Ent.st.injEq, or_iff_left_iff_imp]
      rintro ⟨e, -⟩; exact absurd e.symm hl
    · rw [hbu u e]
  have hh : ∀ u, holds s1 u ↔ holds s u := by intro u; simp [holds, hpc]
  have ho : ∀ u, Owner s1 u ↔ Owner s u := by intro u; simp only [Owner, hh, hlk]
  refine ⟨?_, ?_, ?_, ?_, ?_, ?_, ?_, ?_, ?_⟩
  · intro a b ha hb; exact h.one a b ((ho a).1 ha) ((ho b).1 hb)
  · intro hz u hu; rw [hmem] at hz; exact h.free hz u ((ho u).1 hu)
  · intro u hu
    have hu' : ¬ Owner s u := fun hw => hu ((ho u).2 hw)
    by_cases e : u = t
    · subst e
      rw [hbt]
      intro c w n hm
      rcases List.mem_append.mp hm with hm | hm
      · exact h.other u hu' c w n hm
      · simp only [List.mem_singleton, Ent.st.injEq] at hm
        obtain ⟨rfl, -, -⟩ := hm
        cases hc : prot c with
        | false => rfl
        | true => exact absurd (.inl (.inl (hi hc))) hu'
    · rw [hbu u e]; exact h.other u hu'
  · intro u hu w n hm; exact h.inside u ((hh u).1 hu) w n ((hlk u w n).1 hm)
  · intro u hr hf
    rw [hpc] at hr
    have := h.rel u hr hf
    by_cases e : u = t
    · subst e
      rw [hbt]
      have hna : prot a = false := by
        cases hc : prot a with
        | false => rfl
        | true => rw [hi hc] at hr; simp at hr
      intro p c w n q hb hc
      rcases split_snoc hb with ⟨-, h2, -⟩ | ⟨q', rfl, h2⟩
      · cases h2; rw [hna] at hc; simp at hc
      · exact List.mem_append_left _ (this p c w n q' h2 hc)
    · rw [hbu u e]; exact this
  · intro u pre w n post hb
    by_cases e : u = t
    · subst e
      rw [hbt] at hb
      rcases split_snoc hb with ⟨-, h2, -⟩ | ⟨q, rfl, h2⟩
      · cases h2; exact absurd rfl hl
      · obtain ⟨h3, h4, h5, h6, h7⟩ := h.pending u pre w n q h2
        have hna : prot a = false := by
          cases hc : prot a with
          | false => rfl
          | true => exact absurd (by rw [h2]; simp) (h.inside u (.inl (hi hc)) w n)
        refine ⟨h3, ?_, h5, ?_, h7⟩
        · intro c x m hm
          rcases List.mem_append.mp hm with hm | hm
          · exact h4 c x m hm
          · simp only [List.mem_singleton, Ent.st.injEq] at hm
            obtain ⟨rfl, -, -⟩ := hm; exact hna
        · intro x m hm
          rcases List.mem_append.mp hm with hm | hm
          · exact h6 x m hm
          · simp only [List.mem_singleton, Ent.st.injEq] at hm
            exact hl hm.1.symm
    · rw [hbu u e] at hb; exact h.pending u pre w n post hb
  · intro c hc hcl u hu
    have hu' := (ho u).1 hu
    have hv := h.seen c hc hcl u hu'
    rw [hm0, htr]
    simp only [lastStore]
    by_cases e : u = t
    · subst e
      by_cases ec : a = c
      · subst ec
        simp [S.view, hbt, pend_append, pend]
      · simp only [ec, ↓reduceIte, ← hv, S.view, hbt, hmem, pend_append, pend, Option.none_or]
    · have ec : ¬ a = c := by
        rintro rfl
        exact e (h.one u t hu' (.inl (.inl (hi hc))))
      simp only [ec, ↓reduceIte, ← hv, S.view, hbu u e, hmem]
  · intro c hc hcl hn
    have hn' : ∀ u, ¬ Owner s u := fun u hu => hn u ((ho u).2 hu)
    rw [hm0, htr, hmem]
    have ec : ¬ a = c := by
      rintro rfl
      exact hn' t (.inl (.inl (hi hc)))
    simp only [lastStore, ec, ↓reduceIte]
    exact h.memory c hc hcl hn'
  · rw [htr]; simp only [hh, open']; exact h.hist

theorem mid_cases {pre post p q : List Ent} {x : Ent} (h : pre ++ post = p ++ x :: q) :
    (∃ r, pre = p ++ x :: r ∧ q = r ++ post) ∨ (∃ r, p = pre ++ r ∧ post = r ++ x :: q) := by
  rcases List.append_eq_append_iff.mp h with ⟨c, h1, h2⟩ | ⟨c, h1, h2⟩
  · exact .inr ⟨c, h1, h2⟩
  · cases c with
    | nil => exact .inr ⟨[], by simpa using h1.symm, by simpa using h2.symm⟩
    | cons y c =>
      simp only [List.cons_append, List.cons.injEq] at h2
      exact .inl ⟨c, by rw [h1, h2.1], h2.2⟩

/-- A barrier, or a store to something else than the lock word, leaves the buffer. -/
theorem inv_leave {s s1 : S} (h : Inv A prot s) {t : Tid} {pre post : List Ent} {e : Ent}
    (hb : s.buf t = pre ++ e :: post) (he : e = .mark → pre = [])
    (hlk : ∀ v n, e ≠ .st LOCK v n)
    (hbt : s1.buf t = pre ++ post) (hbu : ∀ u, u ≠ t → s1.buf u = s.buf u)
    (hm0 : s1.m0 = s.m0) (htr : s1.tr = s.tr) (hpc : s1.pc = s.pc)
    (hml : s1.mem LOCK = s.mem LOCK) (hview : ∀ c, s1.view t c = s.view t c)
    (hmem : ∀ c, s1.mem c = s.mem c ∨ ∃ v n, e = .st c v n) : Inv A prot s1 := by
  have hsub : ∀ x ∈ pre ++ post, x ∈ s.buf t := by
    intro x hx; rw [hb]
    rcases List.mem_append.mp hx with hx | hx
    · exact List.mem_append_left _ hx
    · exact List.mem_append_right _ (List.mem_cons_of_mem _ hx)
  have hlk' : ∀ u w n, Ent.st LOCK w n ∈ s1.buf u ↔ Ent.st LOCK w n ∈ s.buf u := by
    intro u w n
    by_cases eu : u = t
    · subst eu
      rw [hbt, hb]
      simp only [List.mem_append, List.mem_cons]
      constructor
      · rintro (h | h)
        · exact .inl h
        · exact .inr (.inr h)
      · rintro (h | h | h)
        · exact .inl h
        · exact absurd h.symm (hlk w n)
        · exact .inr h
    · rw [hbu u eu]
  have hh : ∀ u, holds s1 u ↔ holds s u := by intro u; simp [holds, hpc]
  have ho : ∀ u, Owner s1 u ↔ Owner s u := by intro u; simp only [Owner, hh, hlk']
  refine ⟨?_, ?_, ?_, ?_, ?_, ?_, ?_, ?_, ?_⟩
  · intro a b ha hb; exact h.one a b ((ho a).1 ha) ((ho b).1 hb)
  · intro hz u hu; rw [hml] at hz; exact h.free hz u ((ho u).1 hu)
  · intro u hu
    have hu' : ¬ Owner s u := fun hw => hu ((ho u).2 hw)
    by_cases eu : u = t
    · subst eu; rw [hbt]; exact noprot_sub (h.other u hu') hsub
    · rw [hbu u eu]; exact h.other u hu'
  · intro u hu w n hm; exact h.inside u ((hh u).1 hu) w n ((hlk' u w n).1 hm)
  · intro u hr hf
    rw [hpc] at hr
    have := h.rel u hr hf
    by_cases eu : u = t
    · subst eu; rw [hbt]; exact safe_remove (hb ▸ this) he
    · rw [hbu u eu]; exact this
  · intro u p w n q hbq
    by_cases eu : u = t
    · subst eu
      rw [hbt] at hbq
      rcases mid_cases hbq with ⟨r, rfl, rfl⟩ | ⟨r, rfl, rfl⟩
      · obtain ⟨h3, h4, h5, h6, h7⟩ := h.pending u p w n (r ++ e :: post) (by rw [hb]; simp)
        refine ⟨h3, ?_, h5, ?_, h7⟩
        · refine noprot_sub h4 ?_
          intro x hx
          rcases List.mem_append.mp hx with hx | hx
          · exact List.mem_append_left _ hx
          · exact List.mem_append_right _ (List.mem_cons_of_mem _ hx)
        · intro x m hm
          refine h6 x m ?_
          rcases List.mem_append.mp hm with hx | hx
          · exact List.mem_append_left _ hx
          · exact List.mem_append_right _ (List.mem_cons_of_mem _ hx)
      · obtain ⟨h3, h4, h5, h6, h7⟩ := h.pending u (pre ++ e :: r) w n q (by rw [hb]; simp)
        refine ⟨h3, h4, ?_, h6, fun hf => safe_remove (h7 hf) he⟩
        intro x m hm
        refine h5 x m ?_
        rcases List.mem_append.mp hm with hx | hx
        · exact List.mem_append_left _ hx
        · exact List.mem_append_right _ (List.mem_cons_of_mem _ hx)
    · rw [hbu u eu] at hbq; exact h.pending u p w n q hbq
  · intro c hc hcl u hu
    have hu' := (ho u).1 hu
    have hv := h.seen c hc hcl u hu'
    rw [hm0, htr, ← hv]
    by_cases eu : u = t
    · subst eu; exact hview c
    · have hnt : ¬ Owner s t := fun hw => eu (h.one u t hu' hw)
      rcases hmem c with hmc | ⟨v, n, rfl⟩
      · simp only [S.view, hbu u eu, hmc]
      · have := h.other t hnt c v n (by rw [hb]; simp)
        rw [hc] at this; simp at this
  · intro c hc hcl hn
    have hn' : ∀ u, ¬ Owner s u := fun u hu => hn u ((ho u).2 hu)
    rw [hm0, htr]
    rcases hmem c with hmc | ⟨v, n, rfl⟩
    · rw [hmc]; exact h.memory c hc hcl hn'
    · have := h.other t (hn' t) c v n (by rw [hb]; simp)
      rw [hc] at this; simp at this
  · rw [htr]; simp only [hh]; exact h.hist

/-- The store of spinlock_unlock reaches memory. -/
theorem inv_free {s s1 : S} (hA : A.fifo = true ∨ A.fenced = true ∨ ∀ a, prot a = false) (h : Inv A prot s) {t : Tid}
    {pre post : List Ent} {v n : Nat} (hb : s.buf t = pre ++ .st LOCK v n :: post)
    (hc : canLeave A pre (.st LOCK v n) = true)
    (hbt : s1.buf t = pre ++ post) (hbu : ∀ u, u ≠ t → s1.buf u = s.buf u)
    (hm0 : s1.m0 = s.m0) (htr : s1.tr = s.tr) (hpc : s1.pc = s.pc)
    (hmem : ∀ c, c ≠ LOCK → s1.mem c = s.mem c) : Inv A prot s1 := by
  obtain ⟨h3, h4, h5, h6, h7⟩ := h.pending t pre v n post hb
  have hot : Owner s t := .inr ⟨v, n, by rw [hb]; simp⟩
  have hnh : ∀ u, ¬ holds s1 u := by
    intro u hu
    have hu' : holds s u := by simpa [holds, hpc] using hu
    have := h.one u t (.inl hu') hot
    subst this
    exact h.inside u hu' v n (by rw [hb]; simp)
  have hno : ∀ u, ¬ Owner s1 u := by
    rintro u (hu | ⟨w, k, hm⟩)
    · exact hnh u hu
    · by_cases eu : u = t
      · subst eu
        rw [hbt] at hm
        rcases List.mem_append.mp hm with hm | hm
        · exact h5 w k hm
        · exact h6 w k hm
      · rw [hbu u eu] at hm
        exact eu (h.one u t (.inr ⟨w, k, hm⟩) hot)
  have hnp : NoProt prot pre := by
    rcases Bool.eq_false_or_eq_true A.fifo with hf | hf
    · simp only [canLeave, hf, ↓reduceIte, List.isEmpty_iff] at hc
      subst hc
      intro a v n hm; simp at hm
    · rcases hA with hA | hfe | hA
      · rw [hf] at hA; simp at hA
      · refine safe_noprot (h7 hfe) ?_
        intro hm
        simp only [canLeave, hf, Bool.false_eq_true, ↓reduceIte] at hc
        have := List.all_eq_true.mp hc _ hm
        simp at this
      · exact fun a _ _ _ => hA a
  have hnpt : NoProt prot (s1.buf t) := by
    rw [hbt]
    intro a w k hm
    rcases List.mem_append.mp hm with hm | hm
    · exact hnp a w k hm
    · exact h4 a w k hm
  refine ⟨fun u _ hu => absurd hu (hno u), fun _ => hno, ?_, fun u hu => absurd hu (hnh u),
    fun u hr => absurd (.inr hr) (hnh u), ?_, fun _ _ _ u hu => absurd hu (hno u), ?_, .inr ⟨hnh, ?_⟩⟩
  · intro u _
    by_cases eu : u = t
    · subst eu; exact hnpt
    · rw [hbu u eu]; exact h.other u fun hw => eu (h.one u t hw hot)
  · intro u p w k q hbq
    exact absurd (.inr ⟨w, k, by rw [hbq]; simp⟩) (hno u)
  · intro a ha hl _
    have hs := h.seen a ha hl t hot
    rw [hm0, htr, hmem a hl, ← hs]
    have hl' : ¬ LOCK = a := fun e => hl e.symm
    have hn1 : pend pre a = none := pend_none fun w k hm => by
      have := hnp a w k hm; rw [ha] at this; simp at this
    have hn2 : pend post a = none := pend_none fun w k hm => by
      have := h4 a w k hm; rw [ha] at this; simp at this
    simp [S.view, hb, pend_append, pend, hn1, hn2, hl']
  · rw [htr]
    rcases h.hist with ⟨u, hu, -⟩ | ⟨-, h2⟩
    · exact absurd (by simpa [holds, hpc] using hu) (hnh u)
    · exact h2

theorem inv_step {s s' : S} {l : Lbl} (hA : A.fifo = true ∨ A.fenced = true ∨ ∀ a, prot a = false)
    (h : Inv A prot s) (hn : next A prot s l = some s') : Inv A prot s' := by
  have outside : ∀ (t : Tid) (p : PC), ¬ holds s t → p = .test ∨ p = .cas → Inv A prot (s.setPc t p) := by
    intro t p hnt hp
    refine inv_outside h rfl rfl rfl rfl ?_
    intro u
    by_cases e : u = t
    · subst e; right; refine ⟨hnt, ?_⟩
      rcases hp with rfl | rfl <;> simp [holds, S.setPc]
    · left; simp [S.setPc, e]
  cases l with
  | lock t =>
    simp only [next] at hn
    split at hn
    · rename_i hpc
      simp only [Option.some.injEq] at hn; subst hn
      exact outside t _ (by simp [holds, hpc]) (.inl rfl)
    · simp at hn
  | test t =>
    simp only [next] at hn
    split at hn
    · rename_i hpc
      simp only [Option.some.injEq] at hn; subst hn
      split
      · exact outside t _ (by simp [holds, hpc]) (.inr rfl)
      · exact h
    · simp at hn
  | cas t =>
    simp only [next] at hn
    split at hn
    · rename_i hpc
      simp only [Bool.and_eq_true, decide_eq_true_eq] at hpc
      split at hn
      · rename_i hf
        simp only [Option.some.injEq] at hn; subst hn
        exact inv_acquire h hf
      · simp only [Option.some.injEq] at hn; subst hn
        exact outside t _ (by simp [holds, hpc.1]) (.inl rfl)
    · simp at hn
  | trylock t =>
    simp only [next] at hn
    split at hn
    · split at hn
      · rename_i hf
        simp only [Option.some.injEq] at hn; subst hn
        exact inv_acquire h hf
      · simp only [Option.some.injEq] at hn; subst hn
        exact h
    · simp at hn
  | unlock t =>
    simp only [next] at hn
    split at hn
    · rename_i hpc
      simp only [Option.some.injEq] at hn; subst hn
      exact inv_unlock h hpc
    · simp at hn
  | rel t =>
    simp only [next] at hn
    split at hn
    · rename_i hpc
      simp only [Option.some.injEq] at hn; subst hn
      exact inv_rel h hpc
    · simp at hn
  | load t a =>
    simp only [next] at hn
    split at hn
    · simp only [Option.some.injEq] at hn; subst hn
      exact inv_load h _ ⟨_, _, _, _, rfl⟩
    · simp at hn
  | store t a v =>
    simp only [next] at hn
    split at hn
    · rename_i hc
      simp only [Option.some.injEq] at hn; subst hn
      exact inv_store h hc.1 hc.2
    · simp at hn
  | leave t i =>
    obtain ⟨pre, e, post, hb, hc, rfl⟩ := leave_spec hn
    cases e with
    | mark =>
      refine inv_leave h hb ?_ (by simp) (by simp [S.setBuf]) (by intro u e; simp [S.setBuf, e]) rfl rfl rfl
        rfl ?_ (fun _ => .inl rfl)
      · intro _; simpa [canLeave] using hc
      · intro c; simp [S.view, S.setBuf, hb, pend_mark]
    | st a v n =>
      by_cases hl : a = LOCK
      · subst hl
        exact inv_free hA h hb hc (by simp [S.setBuf, S.setMem])
          (by intro u e; simp [S.setBuf, S.setMem, e]) rfl rfl rfl
          (by intro c e; simp [S.setBuf, S.setMem, e])
      · refine inv_leave h hb (by simp) ?_ (by simp [S.setBuf, S.setMem])
          (by intro u e; simp [S.setBuf, S.setMem, e]) rfl rfl rfl ?_ ?_ ?_
        · rintro v n e; cases e; exact hl rfl
        · have : ¬ LOCK = a := fun e => hl e.symm
          simp [S.setMem, S.setBuf, this]
        · intro c
          have := view_leave (post := post) (c := c) (v := v) (n := n) s.mem (canLeave_first hc)
          simpa [S.view, S.setBuf, S.setMem, hb] using this
        · intro c
          by_cases e : c = a
          · subst e; exact .inr ⟨v, n, rfl⟩
          · left; simp [S.setMem, S.setBuf, e]

theorem lock_inv {P : S → Lbl → Prop} {s : S} (hA : A.fifo = true ∨ A.fenced = true ∨ ∀ a, prot a = false)
    (hs : ReachA A prot P s) : Inv A prot s := by
  induction hs with
  | init m =>
    have hno : ∀ t, ¬ Owner (start m) t := by
      rintro t (hw | ⟨v, n, hm⟩)
      · simp [holds, start] at hw
      · simp [start] at hm
    refine ⟨fun t _ h => absurd h (hno t), fun _ => hno, ?_, ?_, ?_, ?_, fun _ _ _ t h => absurd h (hno t), ?_,
      .inr ⟨fun t h => hno t (.inl h), rfl⟩⟩
    · intro t _ a v n hm; simp [start] at hm
    · intro t h; exact absurd (.inl h) (hno t)
    · intro t h; exact absurd (.inl (.inr h)) (hno t)
    · intro t pre v n post hb; simp [start] at hb
    · intro a _ hl _; simp [start, lastStore, hl]
  | next _ _ hn ih => exact inv_step hA ih hn

end Libmonitor.Wm
