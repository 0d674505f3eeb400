import Verif.Proc.OwnList
/-!
# A thread's record is written by that thread only
-/

namespace Libmonitor.Proc

theorem not_born {s : S} (hs : ReachA Clean s) {t : Tid} {f : Frame} {rest : List Frame}
    (ht : s.th t = f :: rest) (hr : f.resetting = false) : born s.g.tr = false := by
  cases hb : born s.g.tr with
  | false => rfl
  | true => rw [(birth_step hs ht hb).2.1] at hr; cases hr

/-- A created thread that is not past its cleanup routine has a frame that owns its record. -/
theorem mine_claims {s : S} (hs : ReachA Clean s) {t : Tid} {n : NodeId} (hm : Mine s.g t n)
    (hn : n ≠ .main) (h1 : s.th t ≠ []) (h2 : s.th t ≠ [.tdtor]) :
    ∃ f ∈ s.th t, f.thr = some n ∧ f ≠ .bt0 n ∧ claims s.g t f n := by
  rcases hm with ⟨e, _⟩ | ⟨_, h3, h4⟩
  · exact absurd e hn
  · obtain ⟨f0, r0, hu⟩ := List.exists_cons_of_ne_nil h1
    obtain ⟨_, hb⟩ := born_of_live hs (by rw [hu]; exact List.mem_cons_self) h3
    rcases back_inv hs t hb n h4 hn with h | h | ⟨f, hf, k1, k2⟩
    · exact absurd h h1
    · exact absurd h h2
    · exact ⟨f, hf, k1, k2, Or.inr ⟨h3, k1⟩⟩

theorem write_owner {s : S} (hs : ReachA Clean s) {t : Tid} {f : Frame} {rest : List Frame}
    {ok : Bool} (ht : s.th t = f :: rest) {n : NodeId} (hn : n ≠ .main)
    (hw : writes s.g t ok f = some n) :
    (∃ f' ∈ s.th t, claims s.g t f' n) ∨ 1 ≤ availRec s.g n := by
  have hft : f ∈ s.th t := by rw [ht]; exact List.mem_cons_self
  have hne : s.th t ≠ [] := by rw [ht]; simp
  have held : f ≠ .tdtor → Mine s.g t n → ∃ f' ∈ s.th t, claims s.g t f' n := by
    intro hf hm
    obtain ⟨f', h1, _, _, h2⟩ := mine_claims hs hm hn hne
      (by rw [ht]; intro e; injection e with e; exact hf e)
    exact ⟨f', h1, h2⟩
  have thr : f.thr = some n → f.isBtApp = false → ∃ f' ∈ s.th t, claims s.g t f' n :=
    fun h1 h2 => ⟨f, hft, Or.inr ⟨thr_ne_main hs hft h1 h2, h1⟩⟩
  cases f <;> simp only [writes, Option.some.injEq, reduceCtorEq] at hw <;> first
    | exact absurd hw.symm hn
    | (subst hw; exact Or.inl (thr rfl rfl))
    | (subst hw; exact Or.inl ⟨_, hft, Or.inl rfl⟩)
    | (subst hw; exact Or.inl (held (by simp) (held_inv hs hft rfl)))
    | exact Or.inl (held (by simp) (getTn_mine hs (not_born hs ht rfl) hne hw))
    | skip
  · subst hw
    rename_i src
    by_cases e : src = .cleanup
    · subst e; exact Or.inl (thr rfl rfl)
    · exact Or.inl (held (by simp) (held_inv hs hft (by simp [Frame.holds, e])))
  · subst hw
    rename_i src _
    by_cases e : src = .cleanup
    · subst e; exact Or.inl (thr rfl rfl)
    · exact Or.inl (held (by simp) (held_inv hs hft (by simp [Frame.holds, e])))
  · cases ha : alloc s.g ok with
    | none => rw [ha] at hw; cases hw
    | some a =>
      rw [ha] at hw
      injection hw with hw; subst hw
      exact Or.inr (alloc_pos (arr_inv hs) ha)

/-- A step of one thread does not change a record that another thread owns. -/
theorem nodes_keep {s : S} (hs : ReachA Clean s) {t : Tid} {f : Frame} {rest : List Frame}
    {ok : Bool} {v : Nat} {g' : G} {nx : Next} {sp : Option Frame} (ht : s.th t = f :: rest)
    (h : fstep s.g t ok v f = some (g', nx, sp)) {u : Tid} {f' : Frame} {n : NodeId} (hut : u ≠ t)
    (hf' : f' ∈ s.th u) (hc : claims s.g u f' n) : g'.nodes n = s.g.nodes n := by
  have hn : n ≠ .main := claims_ne_main hs hf' (hc.imp_right And.right)
  refine node_keep h (fun hw => ?_)
  rcases write_owner hs ht hn hw with ⟨f'', h1, h2⟩ | h1
  · exact hut (claims_excl hs hn hf' hc h1 h2).1
  · rw [claims_avail hs hn hf' hc] at h1; omega

/-- What the owner's own step writes: only the thread's calls named here. -/
theorem own_write {s : S} (hs : ReachA Clean s) {t : Tid} {f : Frame} {rest : List Frame}
    {ok : Bool} (ht : s.th t = f :: rest) {f' : Frame} {n : NodeId} (hf' : f' ∈ s.th t)
    (hc : claims s.g t f' n) (hw : writes s.g t ok f = some n) :
    f' = f ∨ (f'.newRec = none ∧ (f.holds = some n ∨ getTn s.g t = some n)) := by
  have hft : f ∈ s.th t := by rw [ht]; exact List.mem_cons_self
  have hn : n ≠ .main := claims_ne_main hs hf' (hc.imp_right And.right)
  have key : claims s.g t f n → f' = f := fun h => (claims_excl hs hn hf' hc hft h).2
  have thr : f.thr = some n → f.isBtApp = false → f' = f :=
    fun h1 h2 => key (Or.inr ⟨thr_ne_main hs hft h1 h2, h1⟩)
  have hne : s.th t ≠ [] := by rw [ht]; simp
  have held : f ≠ .tdtor → Mine s.g t n → f'.newRec = none := by
    intro hf hm
    obtain ⟨f2, h1, h2, _, h3⟩ := mine_claims hs hm hn hne
      (by rw [ht]; intro e; injection e with e; exact hf e)
    have := (claims_excl hs hn hf' hc h1 h3).2
    subst this
    cases f' <;> first | rfl | cases h2
  cases f <;> simp only [writes, Option.some.injEq, reduceCtorEq] at hw <;> first
    | exact absurd hw.symm hn
    | (subst hw; exact Or.inl (thr rfl rfl))
    | (subst hw; exact Or.inl (key (Or.inl rfl)))
    | (subst hw; exact Or.inr ⟨held (by simp) (held_inv hs hft rfl), Or.inl rfl⟩)
    | exact Or.inr ⟨held (by simp) (getTn_mine hs (not_born hs ht rfl) hne hw), Or.inr hw⟩
    | skip
  · subst hw
    rename_i src
    by_cases e : src = .cleanup
    · subst e; exact Or.inl (thr rfl rfl)
    · exact Or.inr ⟨held (by simp) (held_inv hs hft (by simp [Frame.holds, e])),
        Or.inl (by simp [Frame.holds, e])⟩
  · subst hw
    rename_i src _
    by_cases e : src = .cleanup
    · subst e; exact Or.inl (thr rfl rfl)
    · exact Or.inr ⟨held (by simp) (held_inv hs hft (by simp [Frame.holds, e])),
        Or.inl (by simp [Frame.holds, e])⟩
  · cases ha : alloc s.g ok with
    | none => rw [ha] at hw; cases hw
    | some a =>
      rw [ha] at hw
      injection hw with hw; subst hw
      have := alloc_pos (arr_inv hs) ha
      rw [claims_avail hs hn hf' hc] at this; omega

end Libmonitor.Proc
