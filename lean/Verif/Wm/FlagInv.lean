import Verif.Wm.Lemmas
/-!
# C68: invariants
-/

namespace Libmonitor.Wm

variable {A : Arch} {prot : Loc → Bool} {t : Tid} {W : Loc → Prop}

/-- The numbers of the stores in a buffer increase. -/
def Sorted : List Ent → Prop
  | [] => True
  | .mark :: b => Sorted b
  | .st _ _ n :: b => (∀ a v k, a ≠ LOCK → Ent.st a v k ∈ b → n < k) ∧ Sorted b

theorem sorted_append {b : List Ent} {a : Loc} {v : Val} {n : Nat} (h : Sorted b)
    (hn : ∀ c w k, Ent.st c w k ∈ b → k < n) : Sorted (b ++ [.st a v n]) := by
  induction b with
  | nil => exact ⟨by simp, trivial⟩
  | cons e b ih =>
    have ih' := fun h => ih h fun c w k hm => hn c w k (List.mem_cons_of_mem _ hm)
    cases e with
    | mark => exact ih' h
    | st d x m =>
      refine ⟨?_, ih' h.2⟩
      intro c w k hl hm
      rcases List.mem_append.mp hm with hm | hm
      · exact h.1 c w k hl hm
      · simp only [List.mem_singleton, Ent.st.injEq] at hm
        obtain ⟨-, -, rfl⟩ := hm
        exact hn d x m List.mem_cons_self

theorem sorted_lock {b : List Ent} {v n : Nat} (h : Sorted b) : Sorted (b ++ [.st LOCK v n]) := by
  induction b with
  | nil => exact ⟨by simp, trivial⟩
  | cons e b ih =>
    cases e with
    | mark => exact ih h
    | st d x m =>
      refine ⟨?_, ih h.2⟩
      intro c w k hl hm
      rcases List.mem_append.mp hm with hm | hm
      · exact h.1 c w k hl hm
      · simp only [List.mem_singleton, Ent.st.injEq] at hm
        exact absurd hm.1 hl

theorem sorted_mark {b : List Ent} (h : Sorted b) : Sorted (b ++ [.mark]) := by
  induction b with
  | nil => trivial
  | cons e b ih =>
    cases e with
    | mark => exact ih h
    | st d x m =>
      refine ⟨?_, ih h.2⟩
      intro c w k hl hm
      rcases List.mem_append.mp hm with hm | hm
      · exact h.1 c w k hl hm
      · simp at hm

theorem sorted_tail {e : Ent} {b : List Ent} (h : Sorted (e :: b)) : Sorted b := by
  cases e with
  | mark => exact h
  | st => exact h.2

/-- The latest delayed store has the largest number. -/
theorem pend_max {b : List Ent} (h : Sorted b) {a : Loc} (hl : a ≠ LOCK) {v : Val} {n : Nat}
    (hm : Ent.st a v n ∈ b) : ∃ x, pend b a = some x ∧ n ≤ x.2 := by
  induction b with
  | nil => simp at hm
  | cons e b ih =>
    cases e with
    | mark =>
      simp only [List.mem_cons, reduceCtorEq, false_or] at hm
      obtain ⟨x, h1, h2⟩ := ih h hm
      exact ⟨x, by simpa [pend] using h1, h2⟩
    | st d w k =>
      rcases List.mem_cons.mp hm with hm | hm
      · cases hm
        cases hx : pend b a with
        | none => exact ⟨(v, n), by simp [pend, hx], Nat.le_refl _⟩
        | some x =>
          refine ⟨x, by simp [pend, hx], ?_⟩
          exact Nat.le_of_lt (h.1 a x.1 x.2 hl (pend_mem hx))
      · obtain ⟨x, h1, h2⟩ := ih h.2 hm
        exact ⟨x, by simp [pend, h1], h2⟩

structure Flag (t : Tid) (W : Loc → Prop) (s : S) : Prop where
  memC : ∀ a, (s.mem a).2 ≤ s.clock
  bufC : ∀ u a v n, Ent.st a v n ∈ s.buf u → n ≤ s.clock
  evC : ∀ u a v n, Ev.load u a v n ∈ s.tr → n ≤ s.clock
  sorted : Sorted (s.buf t)
  later : ∀ f, W f → ∀ a v n, a ≠ LOCK → Ent.st a v n ∈ s.buf t → (s.mem f).2 < n
  only : ∀ u, u ≠ t → ∀ a v n, Ent.st a v n ∈ s.buf u → ¬ W a
  where' : ∀ u a v n, Ev.store u a v n ∈ s.tr → W a → Ent.st a v n ∈ s.buf t ∨ n ≤ (s.mem a).2
  ev : ∀ u f w k, Ev.load u f w k ∈ s.tr → W f → ∀ c a v m, Ev.store c a v m ∈ s.tr → W a → m < k →
    m ≤ (s.view u a).2

theorem view_other {s : S} (h : Flag t W s) {u : Tid} (hu : u ≠ t) {a : Loc} (ha : W a) :
    s.view u a = s.mem a := by
  simp only [S.view]
  rw [pend_none fun v n hm => h.only u hu a v n hm ha]
  rfl

variable (hW : ¬ W LOCK)
include hW

/-- The writer itself sees all that it stored. -/
theorem view_self {s : S} (h : Flag t W s) {u : Tid} {a : Loc} (ha : W a) {v m : Nat}
    (hs : Ev.store u a v m ∈ s.tr) : m ≤ (s.view t a).2 := by
  have hl : a ≠ LOCK := fun e => hW (e ▸ ha)
  rcases h.where' u a v m hs ha with hm | hm
  · obtain ⟨x, h1, h2⟩ := pend_max h.sorted hl hm
    simp only [S.view, h1, Option.getD_some]; exact h2
  · simp only [S.view]
    cases hx : pend (s.buf t) a with
    | none => exact hm
    | some x =>
      have := h.later a ha a x.1 x.2 hl (pend_mem hx)
      simp only [Option.getD_some]; omega

/-- Steps that change neither data in memory nor data in buffers. -/
theorem flag_quiet {s s' : S} (h : Flag t W s) (hmem : ∀ a, a ≠ LOCK → s'.mem a = s.mem a)
    (hml : (s'.mem LOCK).2 ≤ s.clock) (hclk : s'.clock = s.clock)
    (htr : s'.tr = s.tr ∨ ∃ u, s'.tr = .acq u :: s.tr ∨ s'.tr = .rel u :: s.tr)
    (hbuf : ∀ u a v n, a ≠ LOCK → (Ent.st a v n ∈ s'.buf u ↔ Ent.st a v n ∈ s.buf u))
    (hbl : ∀ u v n, Ent.st LOCK v n ∈ s'.buf u → n ≤ s.clock) (hso : Sorted (s'.buf t))
    (hpd : ∀ u a, a ≠ LOCK → pend (s'.buf u) a = pend (s.buf u) a) : Flag t W s' := by
  have hne : ∀ {a}, W a → a ≠ LOCK := fun ha e => hW (e ▸ ha)
  have hl : ∀ u a v n, Ev.load u a v n ∈ s'.tr → Ev.load u a v n ∈ s.tr := by
    intro u a v n hm
    rcases htr with e | ⟨x, e | e⟩ <;> rw [e] at hm <;> simpa using hm
  have hs : ∀ u a v n, Ev.store u a v n ∈ s'.tr → Ev.store u a v n ∈ s.tr := by
    intro u a v n hm
    rcases htr with e | ⟨x, e | e⟩ <;> rw [e] at hm <;> simpa using hm
  refine ⟨?_, ?_, ?_, hso, ?_, ?_, ?_, ?_⟩
  · intro a; rw [hclk]
    by_cases e : a = LOCK
    · subst e; exact hml
    · rw [hmem a e]; exact h.memC a
  · intro u a v n hm; rw [hclk]
    by_cases e : a = LOCK
    · subst e; exact hbl u v n hm
    · exact h.bufC u a v n ((hbuf u a v n e).1 hm)
  · intro u a v n hm; rw [hclk]; exact h.evC u a v n (hl _ _ _ _ hm)
  · intro f hf a v n ha hm
    rw [hmem f (hne hf)]
    exact h.later f hf a v n ha ((hbuf t a v n ha).1 hm)
  · intro u hu a v n hm ha
    exact h.only u hu a v n ((hbuf u a v n (hne ha)).1 hm) ha
  · intro u a v n hm ha
    rw [hbuf t a v n (hne ha), hmem a (hne ha)]
    exact h.where' u a v n (hs _ _ _ _ hm) ha
  · intro u f w k h5 h6 c a v m h7 h8 h9
    have := h.ev u f w k (hl _ _ _ _ h5) h6 c a v m (hs _ _ _ _ h7) h8 h9
    simpa [S.view, hpd u a (hne h8), hmem a (hne h8)] using this

theorem flag_load {s : S} (h : Flag t W s) (u : Tid) (b : Loc) :
    Flag t W { s with tr := .load u b (s.view u b).1 (s.view u b).2 :: s.tr } := by
  have hst : ∀ c a v n, Ev.store c a v n ∈ Ev.load u b (s.view u b).1 (s.view u b).2 :: s.tr →
      Ev.store c a v n ∈ s.tr := by
    intro c a v n hm; simpa using hm
  refine ⟨h.memC, h.bufC, ?_, h.sorted, h.later, h.only, fun u a v n hm => h.where' u a v n (hst _ _ _ _ hm), ?_⟩
  · intro c a v n hm
    rcases List.mem_cons.mp hm with hm | hm
    · cases hm
      simp only [S.view]
      cases hx : pend (s.buf u) b with
      | none => exact h.memC b
      | some x => exact h.bufC u b x.1 x.2 (pend_mem hx)
    · exact h.evC c a v n hm
  · intro c f w k hm hf d a v m hs ha hlt
    have hs := hst _ _ _ _ hs
    rcases List.mem_cons.mp hm with hm | hm
    · cases hm
      show m ≤ (s.view u a).2
      by_cases e : u = t
      · subst e; exact view_self hW h ha hs
      · rw [view_other h e ha]
        rw [view_other h e hf] at hlt
        rcases h.where' d a v m hs ha with hp | hp
        · have := h.later b hf a v m (fun e => hW (e ▸ ha)) hp
          omega
        · exact hp
    · exact h.ev c f w k hm hf d a v m hs ha hlt

omit hW in
theorem flag_store {s : S} (h : Flag t W s) {u : Tid} {b : Loc} {x : Val} (hl : b ≠ LOCK)
    (hw : W b → u = t) :
    Flag t W { s.setBuf u (s.buf u ++ [.st b x (s.clock + 1)]) with
        clock := s.clock + 1, tr := .store u b x (s.clock + 1) :: s.tr } := by
  have hbu : ∀ c, (s.setBuf u (s.buf u ++ [.st b x (s.clock + 1)])).buf c =
      if c = u then s.buf u ++ [.st b x (s.clock + 1)] else s.buf c := by
    intro c; simp only [S.setBuf]
  have hin : ∀ c a v n, Ent.st a v n ∈ (s.setBuf u (s.buf u ++ [.st b x (s.clock + 1)])).buf c →
      Ent.st a v n ∈ s.buf c ∨ (c = u ∧ a = b ∧ n = s.clock + 1) := by
    intro c a v n hm
    rw [hbu] at hm
    split at hm
    · rename_i e; subst e
      rcases List.mem_append.mp hm with hm | hm
      · exact .inl hm
      · simp only [List.mem_singleton, Ent.st.injEq] at hm
        exact .inr ⟨rfl, hm.1, hm.2.2⟩
    · exact .inl hm
  have hkeep : ∀ c e, e ∈ s.buf c → e ∈ (s.setBuf u (s.buf u ++ [.st b x (s.clock + 1)])).buf c := by
    intro c e he; rw [hbu]; split
    · rename_i e; subst e; exact List.mem_append_left _ he
    · exact he
  refine ⟨?_, ?_, ?_, ?_, ?_, ?_, ?_, ?_⟩
  · intro a; have := h.memC a; simp only [S.setBuf]; omega
  · intro c a v n hm
    rcases hin c a v n hm with hm | ⟨-, -, rfl⟩
    · have := h.bufC c a v n hm; simp only; omega
    · exact Nat.le_refl _
  · intro c a v n hm
    simp only [List.mem_cons, reduceCtorEq, false_or] at hm
    have := h.evC c a v n hm; simp only; omega
  · show Sorted ((s.setBuf u _).buf t)
    rw [hbu]
    split
    · rename_i e; subst e
      refine sorted_append h.sorted fun c w k hm => ?_
      have := h.bufC t c w k hm; omega
    · exact h.sorted
  · intro f hf a v n ha hm
    show (s.mem f).2 < n
    rcases hin t a v n hm with hm | ⟨-, -, rfl⟩
    · exact h.later f hf a v n ha hm
    · have := h.memC f; omega
  · intro c hc a v n hm ha
    rcases hin c a v n hm with hm | ⟨rfl, rfl, -⟩
    · exact h.only c hc a v n hm ha
    · exact hc (hw ha)
  · intro c a v n hm ha
    rcases List.mem_cons.mp hm with hm | hm
    · cases hm
      left
      have := hw ha
      subst this
      show _ ∈ (s.setBuf u _).buf u
      rw [hbu]; simp
    · rcases h.where' c a v n hm ha with hp | hp
      · exact .inl (hkeep t _ hp)
      · exact .inr hp
  · intro c f w k hm hf d a v m hs ha hlt
    simp only [List.mem_cons, reduceCtorEq, false_or] at hm
    have hk := h.evC c f w k hm
    rcases List.mem_cons.mp hs with hs | hs
    · cases hs; omega
    · have hv := h.ev c f w k hm hf d a v m hs ha hlt
      by_cases e : c = u
      · subst e
        by_cases ea : b = a
        · subst ea
          simp only [S.view, hbu, ↓reduceIte, pend_append, pend]
          simp only [Option.some_or, Option.getD_some]
          omega
        · simpa [S.view, S.setBuf, pend_append, pend, ea] using hv
      · simpa [S.view, S.setBuf, e] using hv

omit hW in
/-- A data store that is first leaves. -/
theorem flag_leave {s : S} (h : Flag t W s) {u : Tid} {b : Loc} {x : Val} {n : Nat} {post : List Ent}
    (hl : b ≠ LOCK) (hb : s.buf u = .st b x n :: post) :
    Flag t W ((s.setBuf u post).setMem b (x, n)) := by
  generalize hs : (s.setBuf u post).setMem b (x, n) = s1
  have hbu : s1.buf u = post := by rw [← hs]; simp [S.setBuf, S.setMem]
  have hbc : ∀ c, c ≠ u → s1.buf c = s.buf c := by intro c e; rw [← hs]; simp [S.setBuf, S.setMem, e]
  have hmb : s1.mem b = (x, n) := by rw [← hs]; simp [S.setMem]
  have hmc : ∀ c, c ≠ b → s1.mem c = s.mem c := by intro c e; rw [← hs]; simp [S.setBuf, S.setMem, e]
  have hclk : s1.clock = s.clock := by rw [← hs]; rfl
  have htr : s1.tr = s.tr := by rw [← hs]; rfl
  have hsub : ∀ c e, e ∈ s1.buf c → e ∈ s.buf c := by
    intro c e he
    by_cases ec : c = u
    · subst ec; rw [hbu] at he; rw [hb]; exact List.mem_cons_of_mem _ he
    · rw [hbc c ec] at he; exact he
  have hn := h.bufC u b x n (by rw [hb]; simp)
  -- memory only gets newer, for the locations of `t`
  have hnew : ∀ a, W a → (s.mem a).2 ≤ (s1.mem a).2 := by
    intro a ha
    by_cases e : a = b
    · subst e
      by_cases eu : u = t
      · subst eu
        have := h.later a ha a x n hl (by rw [hb]; simp)
        rw [hmb]; simp only; omega
      · exact absurd ha (h.only u eu a x n (by rw [hb]; simp))
    · rw [hmc a e]; exact Nat.le_refl _
  refine ⟨?_, ?_, ?_, ?_, ?_, ?_, ?_, ?_⟩
  · intro a; rw [hclk]
    by_cases e : a = b
    · subst e; rw [hmb]; exact hn
    · rw [hmc a e]; exact h.memC a
  · intro c a v k hm; rw [hclk]; exact h.bufC c a v k (hsub c _ hm)
  · rw [hclk, htr]; exact h.evC
  · by_cases eu : t = u
    · subst eu; rw [hbu]; have := h.sorted; rw [hb] at this; exact sorted_tail this
    · rw [hbc t eu]; exact h.sorted
  · intro f hf a v k ha hm
    by_cases e : f = b
    · subst e
      by_cases eu : u = t
      · subst eu
        rw [hbu] at hm
        rw [hmb]
        have := h.sorted; rw [hb] at this
        exact this.1 a v k ha hm
      · exact absurd hf (h.only u eu f x n (by rw [hb]; simp))
    · rw [hmc f e]; exact h.later f hf a v k ha (hsub t _ hm)
  · intro c hc a v k hm; exact h.only c hc a v k (hsub c _ hm)
  · intro c a v k hm ha
    rw [htr] at hm
    rcases h.where' c a v k hm ha with hp | hp
    · by_cases eu : u = t
      · subst eu
        rw [hb] at hp
        rcases List.mem_cons.mp hp with hp | hp
        · cases hp; right; rw [hmb]; exact Nat.le_refl _
        · left; rw [hbu]; exact hp
      · left; rw [hbc t (fun e => eu e.symm)]; exact hp
    · exact .inr (Nat.le_trans hp (hnew a ha))
  · intro c f w k hm hf d a v m hs' ha hlt
    rw [htr] at hm hs'
    have hv := h.ev c f w k hm hf d a v m hs' ha hlt
    by_cases ec : c = u
    · subst ec
      have := view_leave (pre := []) (post := post) (a := b) (c := a) (v := x) (n := n) s.mem (by simp)
      have h2 : s1.view c a = s.view c a := by
        simp only [S.view, hbu, hb]
        simp only [List.nil_append] at this
        rw [← this]
        congr 1
        by_cases e : a = b
        · subst e; simp [hmb]
        · simp [hmc a e, e]
      rw [h2]; exact hv
    · simp only [S.view, hbc c ec] at hv ⊢
      cases hx : pend (s.buf c) a with
      | none =>
        rw [hx] at hv
        exact Nat.le_trans hv (hnew a ha)
      | some y => rw [hx] at hv; exact hv

theorem flag_step {s s' : S} {l : Lbl} (hA : A.fifo = true) (h : Flag t W s) (hp : Writer t W s l)
    (hn : next A prot s l = some s') : Flag t W s' := by
  have hbl : ∀ u v n, Ent.st LOCK v n ∈ s.buf u → n ≤ s.clock := fun u v n hm => h.bufC u LOCK v n hm
  cases l with
  | lock u =>
    simp only [next] at hn
    split at hn
    · simp only [Option.some.injEq] at hn; subst hn
      exact flag_quiet hW h (fun _ _ => rfl) (h.memC _) rfl (.inl rfl) (fun _ _ _ _ _ => Iff.rfl) hbl h.sorted
        (fun _ _ _ => rfl)
    · simp at hn
  | test u =>
    simp only [next] at hn
    split at hn
    · simp only [Option.some.injEq] at hn; subst hn
      split
      · exact flag_quiet hW h (fun _ _ => rfl) (h.memC _) rfl (.inl rfl) (fun _ _ _ _ _ => Iff.rfl) hbl h.sorted
          (fun _ _ _ => rfl)
      · exact h
    · simp at hn
  | cas u =>
    simp only [next] at hn
    split at hn
    · split at hn
      · simp only [Option.some.injEq] at hn; subst hn
        exact flag_quiet hW h (fun a e => by simp [S.setPc, S.setMem, e]) (by simp [S.setPc, S.setMem]) rfl
          (.inr ⟨u, .inl rfl⟩) (fun _ _ _ _ _ => Iff.rfl) hbl h.sorted (fun _ _ _ => rfl)
      · simp only [Option.some.injEq] at hn; subst hn
        exact flag_quiet hW h (fun _ _ => rfl) (h.memC _) rfl (.inl rfl) (fun _ _ _ _ _ => Iff.rfl) hbl h.sorted
          (fun _ _ _ => rfl)
    · simp at hn
  | trylock u =>
    simp only [next] at hn
    split at hn
    · split at hn
      · simp only [Option.some.injEq] at hn; subst hn
        exact flag_quiet hW h (fun a e => by simp [S.setPc, S.setMem, e]) (by simp [S.setPc, S.setMem]) rfl
          (.inr ⟨u, .inl rfl⟩) (fun _ _ _ _ _ => Iff.rfl) hbl h.sorted (fun _ _ _ => rfl)
      · simp only [Option.some.injEq] at hn; subst hn; exact h
    · simp at hn
  | unlock u =>
    simp only [next] at hn
    split at hn
    · simp only [Option.some.injEq] at hn; subst hn
      split
      · refine flag_quiet hW h (fun _ _ => rfl) (h.memC _) rfl (.inl rfl) ?_ ?_ ?_ ?_
        · intro c a v n _
          by_cases e : c = u
          · subst e; simp [S.setPc, S.setBuf]
          · simp [S.setPc, S.setBuf, e]
        · intro c v n hm
          refine hbl c v n ?_
          by_cases e : c = u
          · subst e; simpa [S.setPc, S.setBuf] using hm
          · simpa [S.setPc, S.setBuf, e] using hm
        · by_cases e : t = u
          · subst e; simp only [S.setPc, S.setBuf, ↓reduceIte]; exact sorted_mark h.sorted
          · simp only [S.setPc, S.setBuf, e, ↓reduceIte]; exact h.sorted
        · intro c a _
          by_cases e : c = u
          · subst e; simp [S.setPc, S.setBuf, pend_append, pend]
          · simp [S.setPc, S.setBuf, e]
      · exact flag_quiet hW h (fun _ _ => rfl) (h.memC _) rfl (.inl rfl) (fun _ _ _ _ _ => Iff.rfl) hbl h.sorted
          (fun _ _ _ => rfl)
    · simp at hn
  | rel u =>
    simp only [next] at hn
    split at hn
    · simp only [Option.some.injEq] at hn; subst hn
      refine flag_quiet hW h (fun _ _ => rfl) (h.memC _) rfl (.inr ⟨u, .inr rfl⟩) ?_ ?_ ?_ ?_
      · intro c a v n hl
        by_cases e : c = u
        · subst e; simp [S.setPc, S.setBuf, hl]
        · simp [S.setPc, S.setBuf, e]
      · intro c v n hm
        by_cases e : c = u
        · subst e
          simp only [S.setPc, S.setBuf, ↓reduceIte, List.mem_append, List.mem_singleton, Ent.st.injEq,
            true_and] at hm
          rcases hm with hm | ⟨-, rfl⟩
          · exact hbl c v n hm
          · exact Nat.zero_le _
        · exact hbl c v n (by simpa [S.setPc, S.setBuf, e] using hm)
      · by_cases e : t = u
        · subst e; simp only [S.setPc, S.setBuf, ↓reduceIte]; exact sorted_lock h.sorted
        · simp only [S.setPc, S.setBuf, e, ↓reduceIte]; exact h.sorted
      · intro c a hl
        have hl' : ¬ LOCK = a := fun e => hl e.symm
        by_cases e : c = u
        · subst e; simp [S.setPc, S.setBuf, pend_append, pend, hl']
        · simp [S.setPc, S.setBuf, e]
    · simp at hn
  | load u a =>
    simp only [next] at hn
    split at hn
    · simp only [Option.some.injEq] at hn; subst hn
      exact flag_load hW h u a
    · simp at hn
  | store u a v =>
    simp only [next] at hn
    split at hn
    · rename_i hc
      simp only [Option.some.injEq] at hn; subst hn
      exact flag_store h hc.1 hp
    · simp at hn
  | leave u i =>
    obtain ⟨pre, e, post, hb, hc, rfl⟩ := leave_spec hn
    have hpre : pre = [] := by cases e <;> simpa [canLeave, hA] using hc
    subst hpre
    simp only [List.nil_append] at hb ⊢
    have hso : Sorted (if t = u then post else s.buf t) := by
      split
      · rename_i e; subst e; have := h.sorted; rw [hb] at this; exact sorted_tail this
      · exact h.sorted
    have hsb : ∀ c v n, Ent.st LOCK v n ∈ (if c = u then post else s.buf c) → n ≤ s.clock := by
      intro c v n hm
      refine hbl c v n ?_
      split at hm
      · rename_i e; subst e; rw [hb]; exact List.mem_cons_of_mem _ hm
      · exact hm
    cases e with
    | mark =>
      refine flag_quiet hW h (fun _ _ => rfl) (h.memC _) rfl (.inl rfl) ?_ hsb hso ?_
      · intro c a v n _
        by_cases e : c = u
        · subst e; simp [S.setBuf, hb]
        · simp [S.setBuf, e]
      · intro c a _
        by_cases e : c = u
        · subst e; simp [S.setBuf, hb, pend]
        · simp [S.setBuf, e]
    | st a v n =>
      by_cases hl : a = LOCK
      · subst hl
        refine flag_quiet hW h (fun a e => by simp [S.setBuf, S.setMem, e]) ?_ rfl (.inl rfl) ?_ hsb hso ?_
        · simp only [S.setMem, ↓reduceIte]; exact hbl u v n (by rw [hb]; simp)
        · intro c a w k hl
          by_cases e : c = u
          · subst e; simp [S.setBuf, S.setMem, hb, hl]
          · simp [S.setBuf, S.setMem, e]
        · intro c a hl
          have hl' : ¬ LOCK = a := fun e => hl e.symm
          by_cases e : c = u
          · subst e
            simp only [S.setBuf, S.setMem, hb, pend, hl', ↓reduceIte]
            cases pend post a <;> rfl
          · simp [S.setBuf, S.setMem, e]
      · exact flag_leave h hl hb

theorem flag_inv {s : S} (hA : A.fifo = true) (hs : ReachA A prot (Writer t W) s) : Flag t W s := by
  induction hs with
  | init m =>
    refine ⟨?_, by simp [start], by simp [start], trivial, by simp [start], by simp [start],
      by simp [start], by simp [start]⟩
    intro a; simp only [start]; split <;> simp
  | next _ hp hn ih => exact flag_step hW hA ih hp hn

end Libmonitor.Wm
