import Verif.Wm.Spec
import Verif.Wm.Lemmas
/-!
# Histories: where values come from, numbers of stores
-/

namespace Libmonitor.Wm

variable {A : Arch} {prot : Loc → Bool} {P : S → Lbl → Prop}

/-- Every step adds at most one event. -/
theorem next_tr {s s' : S} {l : Lbl} (hn : next A prot s l = some s') :
    s'.m0 = s.m0 ∧ (s'.tr = s.tr ∨ (∃ t, s'.tr = .acq t :: s.tr) ∨ (∃ t, s'.tr = .rel t :: s.tr) ∨
    (∃ t a, l = .load t a ∧ (prot a = true → s.pc t = .inside) ∧ a ≠ LOCK ∧
      s' = { s with tr := .load t a (s.view t a).1 (s.view t a).2 :: s.tr }) ∨
    (∃ t a v, l = .store t a v ∧ s'.tr = .store t a v (s.clock + 1) :: s.tr ∧ s'.clock = s.clock + 1)) := by
  cases l with
  | leave u i =>
    obtain ⟨pre, e, post, hb, hc, rfl⟩ := leave_spec hn
    cases e <;> exact ⟨rfl, .inl rfl⟩
  | load u a =>
    simp only [next] at hn
    split at hn
    · rename_i hc
      simp only [Option.some.injEq] at hn; subst hn
      exact ⟨rfl, .inr (.inr (.inr (.inl ⟨u, a, rfl, hc.2, hc.1, rfl⟩)))⟩
    · simp at hn
  | store u a v =>
    simp only [next] at hn
    split at hn
    · simp only [Option.some.injEq] at hn; subst hn
      exact ⟨rfl, .inr (.inr (.inr (.inr ⟨u, a, v, rfl, rfl, rfl⟩)))⟩
    · simp at hn
  | lock u =>
    simp only [next] at hn
    split at hn
    · simp only [Option.some.injEq] at hn; subst hn; exact ⟨rfl, .inl rfl⟩
    · simp at hn
  | test u =>
    simp only [next] at hn
    split at hn
    · simp only [Option.some.injEq] at hn; subst hn; split <;> exact ⟨rfl, .inl rfl⟩
    · simp at hn
  | cas u =>
    simp only [next] at hn
    split at hn
    · split at hn
      · simp only [Option.some.injEq] at hn; subst hn; exact ⟨rfl, .inr (.inl ⟨u, rfl⟩)⟩
      · simp only [Option.some.injEq] at hn; subst hn; exact ⟨rfl, .inl rfl⟩
    · simp at hn
  | trylock u =>
    simp only [next] at hn
    split at hn
    · split at hn
      · simp only [Option.some.injEq] at hn; subst hn; exact ⟨rfl, .inr (.inl ⟨u, rfl⟩)⟩
      · simp only [Option.some.injEq] at hn; subst hn; exact ⟨rfl, .inl rfl⟩
    · simp at hn
  | unlock u =>
    simp only [next] at hn
    split at hn
    · simp only [Option.some.injEq] at hn; subst hn; split <;> exact ⟨rfl, .inl rfl⟩
    · simp at hn
  | rel u =>
    simp only [next] at hn
    split at hn
    · simp only [Option.some.injEq] at hn; subst hn; exact ⟨rfl, .inr (.inr (.inl ⟨u, rfl⟩))⟩
    · simp at hn

/-- A claim about every load, made at the time of the load. -/
theorem each_load {Q : (Loc → Val) → Tid → Loc → Val → Nat → List Ev → Prop}
    (hQ : ∀ s t a, ReachA A prot P s → (prot a = true → s.pc t = .inside) → a ≠ LOCK →
      Q s.m0 t a (s.view t a).1 (s.view t a).2 s.tr)
    {s : S} (hs : ReachA A prot P s) : ∀ p t a v n q, s.tr = p ++ .load t a v n :: q → Q s.m0 t a v n q := by
  induction hs with
  | init m => intro p t a v n q h; simp [start] at h
  | @next s0 s' l hr hp hn ih =>
    intro p t a v n q h
    obtain ⟨h0, h1⟩ := next_tr hn
    rw [h0]
    have skip : ∀ e, s'.tr = e :: s0.tr → (∀ t a v n, e ≠ .load t a v n) → Q s0.m0 t a v n q := by
      intro e he hne
      rw [he] at h
      cases p with
      | nil => simp only [List.nil_append, List.cons.injEq] at h; exact absurd h.1 (hne _ _ _ _)
      | cons x p => simp only [List.cons_append, List.cons.injEq] at h; exact ih p t a v n q h.2
    rcases h1 with h1 | ⟨u, h1⟩ | ⟨u, h1⟩ | ⟨u, b, -, h2, h3, rfl⟩ | ⟨u, b, x, -, h1, -⟩
    · exact ih p t a v n q (h1 ▸ h)
    · exact skip _ h1 (by simp)
    · exact skip _ h1 (by simp)
    · cases p with
      | nil =>
        simp only [List.nil_append, List.cons.injEq, Ev.load.injEq] at h
        obtain ⟨⟨rfl, rfl, rfl, rfl⟩, rfl⟩ := h
        exact hQ s0 u b hr h2 h3
      | cons x p => simp only [List.cons_append, List.cons.injEq] at h; exact ih p t a v n q h.2
    · exact skip _ h1 (by simp)

/-- The numbers of stores increase. -/
theorem numbers {s : S} (hs : ReachA A prot P s) :
    (∀ t a v n, Ev.store t a v n ∈ s.tr → n ≤ s.clock) ∧
    ∀ p t a v n q u b w k, s.tr = p ++ .store t a v n :: q → Ev.store u b w k ∈ q → k < n := by
  induction hs with
  | init m => exact ⟨by simp [start], by intro p t a v n q u b w k h; simp [start] at h⟩
  | @next s0 s' l hr hp hn ih =>
    have keep : ∀ e, s'.tr = e :: s0.tr → (∀ t a v n, e ≠ .store t a v n) → s'.clock = s0.clock →
        (∀ t a v n, Ev.store t a v n ∈ s'.tr → n ≤ s'.clock) ∧
        ∀ p t a v n q u b w k, s'.tr = p ++ .store t a v n :: q → Ev.store u b w k ∈ q → k < n := by
      intro e he hne hc
      rw [he, hc]
      refine ⟨?_, ?_⟩
      · intro t a v n hm
        rcases List.mem_cons.mp hm with hm | hm
        · exact absurd hm.symm (hne _ _ _ _)
        · exact ih.1 t a v n hm
      · intro p t a v n q u b w k h hm
        cases p with
        | nil => simp only [List.nil_append, List.cons.injEq] at h; exact absurd h.1 (hne _ _ _ _)
        | cons x p =>
          simp only [List.cons_append, List.cons.injEq] at h
          exact ih.2 p t a v n q u b w k h.2 hm
    have clk : (∀ t a v, l ≠ .store t a v) → s'.clock = s0.clock := by
      intro hne
      cases l with
      | leave u i =>
        obtain ⟨pre, e, post, hb, hc, rfl⟩ := leave_spec hn
        cases e <;> rfl
      | store u a v => exact absurd rfl (hne _ _ _)
      | _ =>
        simp only [next] at hn
        split at hn
        · first
          | (simp only [Option.some.injEq] at hn; subst hn; first | rfl | (split <;> rfl))
          | (split at hn <;> (simp only [Option.some.injEq] at hn; subst hn; rfl))
        · simp at hn
    obtain ⟨-, h1⟩ := next_tr hn
    by_cases hl : ∃ t a v, l = .store t a v
    · rcases h1 with h1 | ⟨u, h1⟩ | ⟨u, h1⟩ | ⟨u, b, h1, -⟩ | ⟨u, b, x, -, h1, hc⟩
      all_goals obtain ⟨t0, a0, v0, rfl⟩ := hl
      all_goals simp only [next] at hn
      all_goals split at hn
      all_goals try simp at hn; done
      all_goals simp only [Option.some.injEq] at hn
      all_goals subst hn
      · simp at h1
      · simp at h1
      · simp at h1
      · simp at h1
      · refine ⟨?_, ?_⟩
        · intro t a v n hm
          rcases List.mem_cons.mp hm with hm | hm
          · cases hm; exact Nat.le_refl _
          · have := ih.1 t a v n hm; simp only; omega
        · intro p t a v n q u b w k h hm
          cases p with
          | nil =>
            simp only [List.nil_append, List.cons.injEq, Ev.store.injEq] at h
            obtain ⟨⟨-, -, -, rfl⟩, rfl⟩ := h
            have := ih.1 u b w k hm; omega
          | cons y p =>
            simp only [List.cons_append, List.cons.injEq] at h
            exact ih.2 p t a v n q u b w k h.2 hm
    · have hc := clk fun t a v e => hl ⟨t, a, v, e⟩
      rcases h1 with h1 | ⟨u, h1⟩ | ⟨u, h1⟩ | ⟨u, b, -, h2, h3, rfl⟩ | ⟨u, b, x, e, -, -⟩
      · rw [h1, hc]; exact ih
      · exact keep _ h1 (by simp) hc
      · exact keep _ h1 (by simp) hc
      · exact keep _ rfl (by simp) rfl
      · exact absurd ⟨u, b, x, e⟩ hl

/-- Values come from stores. -/
structure Src (s : S) : Prop where
  mem : ∀ a, a ≠ LOCK → s.mem a = (s.m0 a, 0) ∨ ∃ t, Ev.store t a (s.mem a).1 (s.mem a).2 ∈ s.tr
  buf : ∀ t a v n, a ≠ LOCK → Ent.st a v n ∈ s.buf t → Ev.store t a v n ∈ s.tr

theorem src {s : S} (hs : ReachA A prot P s) : Src s := by
  induction hs with
  | init m => exact ⟨fun a hl => .inl (by simp [start, hl]), by simp [start]⟩
  | @next s0 s' l hr hp hn ih =>
    have same : ∀ s' : S, (∀ a, a ≠ LOCK → s'.mem a = s0.mem a) → s'.m0 = s0.m0 →
        (∀ e ∈ s0.tr, e ∈ s'.tr) →
        (∀ t a v n, a ≠ LOCK → Ent.st a v n ∈ s'.buf t → Ent.st a v n ∈ s0.buf t) → Src s' := by
      intro s' h1 h2 h3 h4
      refine ⟨?_, fun t a v n hl hm => h3 _ (ih.buf t a v n hl (h4 t a v n hl hm))⟩
      intro a hl
      rw [h1 a hl, h2]
      rcases ih.mem a hl with h | ⟨t, h⟩
      · exact .inl h
      · exact .inr ⟨t, h3 _ h⟩
    cases l with
    | leave u i =>
      obtain ⟨pre, e, post, hb, hc, rfl⟩ := leave_spec hn
      have hsub : ∀ c x, x ∈ (if c = u then pre ++ post else s0.buf c) → x ∈ s0.buf c := by
        intro c x hx
        split at hx
        · rename_i ec; subst ec; rw [hb]
          rcases List.mem_append.mp hx with hx | hx
          · exact List.mem_append_left _ hx
          · exact List.mem_append_right _ (List.mem_cons_of_mem _ hx)
        · exact hx
      cases e with
      | mark => exact same _ (fun _ _ => rfl) rfl (fun _ h => h) fun t a v n _ hm => hsub t _ hm
      | st b w k =>
        by_cases hl : b = LOCK
        · subst hl
          exact same _ (fun a e => by simp [S.setMem, S.setBuf, e]) rfl (fun _ h => h)
            fun t a v n _ hm => hsub t _ hm
        · refine ⟨?_, fun t a v n hl hm => ih.buf t a v n hl (hsub t _ hm)⟩
          intro a ha
          by_cases e : a = b
          · subst e
            right
            refine ⟨u, ?_⟩
            simp only [S.setMem, S.setBuf, ↓reduceIte]
            exact ih.buf u a w k hl (by rw [hb]; simp)
          · have := ih.mem a ha
            simpa [S.setMem, S.setBuf, e] using this
    | store u b x =>
      simp only [next] at hn
      split at hn
      · simp only [Option.some.injEq] at hn; subst hn
        refine ⟨?_, ?_⟩
        · intro a ha
          rcases ih.mem a ha with h | ⟨t, h⟩
          · exact .inl h
          · exact .inr ⟨t, List.mem_cons_of_mem _ h⟩
        · intro t a v n hl hm
          simp only [S.setBuf] at hm
          split at hm
          · rename_i e; subst e
            rcases List.mem_append.mp hm with hm | hm
            · exact List.mem_cons_of_mem _ (ih.buf t a v n hl hm)
            · simp only [List.mem_singleton, Ent.st.injEq] at hm
              obtain ⟨rfl, rfl, rfl⟩ := hm
              exact List.mem_cons_self
          · exact List.mem_cons_of_mem _ (ih.buf t a v n hl hm)
      · simp at hn
    | load u a =>
      simp only [next] at hn
      split at hn
      · simp only [Option.some.injEq] at hn; subst hn
        exact same _ (fun _ _ => rfl) rfl (fun _ h => List.mem_cons_of_mem _ h) fun _ _ _ _ _ h => h
      · simp at hn
    | lock u =>
      simp only [next] at hn
      split at hn
      · simp only [Option.some.injEq] at hn; subst hn
        exact same _ (fun _ _ => rfl) rfl (fun _ h => h) fun _ _ _ _ _ h => h
      · simp at hn
    | test u =>
      simp only [next] at hn
      split at hn
      · simp only [Option.some.injEq] at hn; subst hn
        split
        · exact same _ (fun _ _ => rfl) rfl (fun _ h => h) fun _ _ _ _ _ h => h
        · exact ih
      · simp at hn
    | cas u =>
      simp only [next] at hn
      split at hn
      · split at hn
        · simp only [Option.some.injEq] at hn; subst hn
          exact same _ (fun a e => by simp [S.setPc, S.setMem, e]) rfl (fun _ h => List.mem_cons_of_mem _ h)
            fun _ _ _ _ _ h => h
        · simp only [Option.some.injEq] at hn; subst hn
          exact same _ (fun _ _ => rfl) rfl (fun _ h => h) fun _ _ _ _ _ h => h
      · simp at hn
    | trylock u =>
      simp only [next] at hn
      split at hn
      · split at hn
        · simp only [Option.some.injEq] at hn; subst hn
          exact same _ (fun a e => by simp [S.setPc, S.setMem, e]) rfl (fun _ h => List.mem_cons_of_mem _ h)
            fun _ _ _ _ _ h => h
        · simp only [Option.some.injEq] at hn; subst hn; exact ih
      · simp at hn
    | unlock u =>
      simp only [next] at hn
      split at hn
      · simp only [Option.some.injEq] at hn; subst hn
        split
        · refine same _ (fun _ _ => rfl) rfl (fun _ h => h) fun t a v n _ hm => ?_
          by_cases e : t = u
          · subst e; simpa [S.setPc, S.setBuf] using hm
          · simpa [S.setPc, S.setBuf, e] using hm
        · exact same _ (fun _ _ => rfl) rfl (fun _ h => h) fun _ _ _ _ _ h => h
      · simp at hn
    | rel u =>
      simp only [next] at hn
      split at hn
      · simp only [Option.some.injEq] at hn; subst hn
        refine same _ (fun _ _ => rfl) rfl (fun _ h => List.mem_cons_of_mem _ h) fun t a v n hl hm => ?_
        by_cases e : t = u
        · subst e; simpa [S.setPc, S.setBuf, hl] using hm
        · simpa [S.setPc, S.setBuf, e] using hm
      · simp at hn

end Libmonitor.Wm
