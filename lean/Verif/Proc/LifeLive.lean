import Verif.Proc.OwnRet
/-!
# A registered thread that has not run its cleanup routine has its record
-/

namespace Libmonitor.Proc

theorem linked_new {g g' : G} {t : Tid} {ok : Bool} {v : Nat} {f : Frame} {nx : Next}
    {sp : Option Frame} (h : fstep g t ok v f = some (g', nx, sp)) {u : Tid} {k : Int}
    (hm : (u, .linked k) ∈ g'.tr) :
    (u, .linked k) ∈ g.tr ∨ (u = t ∧ ∃ n, f = .bt2 n ∧ nx = .go [.bt3 n]) := by
  cases f <;> fstep_cases h <;> first
    | exact Or.inl hm
    | (simp [listInit, G.emit, G.upd] at hm; exact Or.inl hm)
    | skip
  rcases List.mem_cons.1 hm with hm | hm
  · injection hm with h1 _; exact Or.inr ⟨h1, _, rfl, rfl⟩
  · exact Or.inl hm

def LinkS (g : G) (u : Tid) (l : List Frame) : Prop :=
  u ≠ mainOf g.tr → ∀ k, (u, .linked k) ∈ g.tr →
    l = [] ∨ (l = [.tdtor] ∧ ∃ n, n ≠ .main ∧ g.tsd u = some n) ∨
      ∃ f ∈ l, f.thr.isSome = true ∧ f.unlinked = none

theorem linkS_inv {s : S} (hs : ReachA Clean s) (u : Tid) : LinkS s.g u (s.th u) := by
  refine (stack_invA (GI := fun _ => True) (SI := LinkS) trivial ?_ ?_ ?_
    (fun _ h => h) (fun _ _ _ h => h) ?_ ?_ ?_ ?_ hs).2 u
  · intro h; exact absurd rfl h
  · intro _ _ _ _ _; exact Or.inl rfl
  · intro s t f rest ok v g' nx sp hr hA ht _ hS h
    have hft : f ∈ s.th t := by rw [ht]; exact List.mem_cons_self
    have hmo := mainOf_fstep h
    have hsh := shape_inv hr t
    have hSt := hS t
    rw [ht] at hsh hSt
    have htsd : ∀ u, s.th u ≠ [] → u ≠ mainOf s.g.tr → (u = t → ∀ n, f ≠ .bt0 n) →
        g'.tsd u = s.g.tsd u := by
      intro u hne hu hb0
      obtain ⟨f0, r0, hu0⟩ := List.exists_cons_of_ne_nil hne
      obtain ⟨hus, hb⟩ := born_of_live hr (by rw [hu0]; exact List.mem_cons_self) hu
      have hnr := not_resetting hr hft hb
      by_cases e : ∃ m, f = .bt0 m
      · obtain ⟨m, e⟩ := e
        have : u ≠ t := fun e2 => hb0 e2 m e
        subst e
        fstep_cases h
        exact if_neg this
      · rw [tsd_keep hnr (fun m hm => e ⟨m, hm⟩) (fun _ _ _ => hus) h]
    have hunw : nx = .unwind → LinkS g' t (unwound rest) := by
      intro e hu k hk
      rw [hmo] at hu
      have hk := (linked_new h hk).resolve_right (by rintro ⟨_, _, _, e2⟩; rw [e] at e2; cases e2)
      have hnb0 : ∀ n, f ≠ .bt0 n := by
        intro n e2; subst e2; fstep_cases h; cases e
      rcases hSt hu k hk with e2 | ⟨e2, _⟩ | ⟨f', hf', h1, h2⟩
      · cases e2
      · injection e2 with e2 _
        subst e2; fstep_cases h <;> cases e
      · rcases unwound_cases rest with e2 | ⟨_, n, _, _, e2⟩
        · refine Or.inr (Or.inl ⟨e2, ?_⟩)
          obtain ⟨n, hn⟩ := Option.isSome_iff_exists.1 h1
          have hf'' : f' ∈ s.th t := by rw [ht]; exact hf'
          refine ⟨n, claims_ne_main hr hf'' (Or.inr hn), ?_⟩
          rw [htsd t (by rw [ht]; simp) hu (fun _ => hnb0)]
          refine ((tsd_inv hr).2 t f' hf'').2 n hn ?_ hu
          intro e3; subst e3; cases h2
        · rw [e2]
          exact Or.inr (Or.inr ⟨.cl0 n, List.mem_cons_self, rfl, rfl⟩)
    refine ⟨trivial, ?_, ?_, hunw, ?_, ?_⟩
    · intro u hut _ hu k hk
      rw [hmo] at hu
      have hk := (linked_new h hk).resolve_right (fun hh => hut hh.1)
      rcases hS u hu k hk with e | ⟨e, n, h1, h2⟩ | h1
      · exact Or.inl e
      · refine Or.inr (Or.inl ⟨e, n, h1, ?_⟩)
        rw [htsd u (by rw [e]; simp) hu (fun e => absurd e hut)]; exact h2
      · exact Or.inr (Or.inr h1)
    · intro e hu k hk
      rw [hmo] at hu
      have hk := (linked_new h hk).resolve_right (by rintro ⟨_, _, _, e2⟩; rw [e] at e2; cases e2)
      rcases hSt hu k hk with e2 | ⟨e2, n, h1, h2⟩ | h1
      · exact Or.inl e2
      · refine Or.inr (Or.inl ⟨e2, n, h1, ?_⟩)
        rw [htsd t (by rw [ht]; simp) hu ?_]
        · exact h2
        · intro _ m e3; injection e2 with e2 _; rw [e3] at e2; cases e2
      · exact Or.inr (Or.inr h1)
    · intro l e hu k hk
      subst e
      rw [hmo] at hu
      rcases linked_new h hk with hk | ⟨_, n, e1, e2⟩
      · rcases hSt hu k hk with e2 | ⟨e2, n, h1, h2⟩ | ⟨f', hf', h1, h2⟩
        · cases e2
        · injection e2 with e2 e3
          subst e2; subst e3
          have hg : gone s t = true := by
            simp only [gone, ht, h2]
            cases n with
            | main => exact absurd rfl h1
            | slot _ _ => rfl
          have hok : ok = true := hA.1 hg
          subst hok
          fstep_cases h
          · exact Or.inl rfl
          · rename_i e; exact absurd trivial e
        · rcases List.mem_cons.1 hf' with e | hf'
          · subst e
            obtain ⟨n, hn⟩ := Option.isSome_iff_exists.1 h1
            have hne := claims_ne_main hr hft (Or.inr hn)
            have hnb0 : ∀ m, f' ≠ .bt0 m := by intro m e3; subst e3; cases h2
            have hts := ((tsd_inv hr).2 t f' hft).2 n hn (hnb0 n) hu
            rw [← htsd t (by rw [ht]; simp) hu (fun _ => hnb0)] at hts
            cases f' <;> first | (cases h1; done) | (cases h2; done) | skip
            all_goals first
              | (fstep_cases h <;>
                 first
                 | exact Or.inr (Or.inr ⟨_, List.mem_cons_self, rfl, rfl⟩)
                 | (have e := hsh.2.1 rfl
                    subst e
                    exact Or.inr (Or.inl ⟨rfl, n, hne, hts⟩)))
              | skip
            · rename_i src
              simp only [Frame.thr, Option.ite_none_right_eq_some] at hn
              fstep_cases h
              exact Or.inr (Or.inr ⟨_, List.mem_cons_self, by simp [Frame.thr, hn.1], rfl⟩)
            · rename_i src _
              simp only [Frame.thr, Option.ite_none_right_eq_some] at hn
              fstep_cases h
              · exact Or.inr (Or.inr ⟨_, List.mem_cons_self, rfl, rfl⟩)
              · rename_i e; exact absurd hn.1 e
          · exact Or.inr (Or.inr ⟨f', List.mem_append_right _ hf', h1, h2⟩)
      · injection e2 with e2
        subst e2
        exact Or.inr (Or.inr ⟨_, List.mem_cons_self, rfl, rfl⟩)
    · intro f0 e hu k hk
      subst e
      exfalso
      have hne : s.g.nextTid ≠ t := by
        intro e2
        have := fresh_inv hr t (by omega)
        rw [ht] at this; cases this
      have hk := (linked_new h hk).resolve_right (fun hh => hne hh.1)
      have h1 := occursBy_pos (p := fun e => e.isLinked || e.isRefused) hk rfl
      have := (life_linked' hr s.g.nextTid).2 (Nat.le_refl _)
      omega
  · intro s t i f rest pre hr hA ht _ hS h1 h2 hpre hu k hk
    have := hS t hu k hk
    rw [ht] at this
    rcases this with e | ⟨e, n, hn, ht2⟩ | ⟨f', hf', h3⟩
    · cases e
    · injection e with e1 e2
      subst e1; subst e2
      have hg : gone s t = true := by
        simp only [gone, ht, ht2]
        cases n with
        | main => exact absurd rfl hn
        | slot _ _ => rfl
      exfalso
      cases i <;> first
        | exact absurd rfl h1
        | exact absurd rfl (h2 _ _)
        | (have := hA.2; rw [hg] at this; cases this; done)
        | (have : gone s t = false := hA
           rw [hg] at this; cases this)
    · exact Or.inr (Or.inr ⟨f', List.mem_append_right _ hf', h3⟩)
  · intro s t hr hA _ hne hS hu k hk
    rcases hS t hu k hk with e | ⟨e, n, h1, h2⟩ | ⟨f', hf', h1, h2⟩
    · exact absurd e hne
    · rw [e]; exact Or.inr (Or.inl ⟨rfl, n, h1, h2⟩)
    · rcases unwound_cases (s.th t) with e2 | ⟨_, n, _, _, e2⟩
      · refine Or.inr (Or.inl ⟨e2, ?_⟩)
        obtain ⟨n, hn⟩ := Option.isSome_iff_exists.1 h1
        refine ⟨n, claims_ne_main hr hf' (Or.inr hn), ?_⟩
        refine ((tsd_inv hr).2 t f' hf').2 n hn ?_ hu
        intro e3; subst e3; cases h2
      · rw [e2]
        exact Or.inr (Or.inr ⟨.cl0 n, List.mem_cons_self, rfl, rfl⟩)
  · intro s t c d rest hr hA ht _ hS
    exact ⟨trivial, fun h => absurd rfl h, fun u _ _ _ _ => Or.inl rfl⟩
  · intro s t rest hr hA ht _ hS
    exact ⟨trivial, fun h => absurd rfl h, fun u _ _ _ _ => Or.inl rfl⟩

end Libmonitor.Proc
