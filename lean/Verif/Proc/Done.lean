import Verif.Proc.ListI
/-!
# The exit cleanup waits for the threads on the list
-/

namespace Libmonitor.Proc

/-- Thread `u` has returned from fini-thread. -/
def Ret (g : G) (u : Tid) : Prop := ∃ k, (u, Ev.finiThreadRet k) ∈ g.tr

theorem Ret.mono {g g' : G} {t : Tid} {ok : Bool} {v : Nat} {f : Frame} {nx : Next}
    {sp : Option Frame} (h : fstep g t ok v f = some (g', nx, sp)) {u : Tid} (hr : Ret g u) :
    Ret g' u := by
  obtain ⟨k, hr⟩ := hr
  exact ⟨k, mem_of_fstep h _ hr⟩

/-- What a step does to tn_fini_done of a record that is on the list. -/
theorem list_finiD {s : S} (hr : ReachA Clean s) {t : Tid} {f : Frame} {rest : List Frame}
    {ok : Bool} {v : Nat} {g' : G} {nx : Next} {sp : Option Frame} (ht : s.th t = f :: rest)
    (h : fstep s.g t ok v f = some (g', nx, sp)) (hb : born s.g.tr = false) {n : NodeId}
    (hn : n ≠ .main) (hl : n ∈ s.g.list) {u : Tid} (hu : (s.g.nodes n).self = some u)
    (hul : f = .ul1 n → s.g.inExit = true) :
    (g'.nodes n).finiD = (s.g.nodes n).finiD ∨ Ret g' u := by
  have hft : f ∈ s.th t := by rw [ht]; exact List.mem_cons_self
  obtain ⟨hc, hav, hex⟩ := list_excl hr hn hb hl
  have hmem := mem_of_fstep h
  by_cases e : f.shapes n
  · have hcl := shapes_claims hr hft e
    rcases e with e | e | e | e | e | ⟨c, my, st, ar, d, e⟩
    · subst e; exact absurd rfl (hex t _ hft).2
    · subst e; exact absurd rfl (hex t _ hft).2
    · subst e
      fstep_cases h
      simp [G.emit, G.upd]
    · subst e
      fstep_cases h
      simp [G.upd]
    · have hx := hul e
      subst e
      have hut := claim_self hr hft hcl rfl (by simp) hu
      subst hut
      have htm := thr_ne_main hr hft (n := n) rfl rfl
      obtain ⟨k, hd⟩ := ((recI_inv hr hft).2 n htm rfl).done rfl
      exact Or.inr ⟨k, hmem _ hd⟩
    · subst e; exact absurd rfl (hex t _ hft).1
  · obtain ⟨k1, _, k2⟩ := core_keep h hn e (fun a c my st ar d _ ha e => by
      have := alloc_pos (arr_inv hr) ha
      rw [e] at this; omega)
    rcases k2 with k2 | ⟨src, tid, e2⟩
    · exact Or.inl k2
    · subst e2
      right
      have hut : u = t := by
        by_cases es : src = .cleanup
        · subst es
          have htm := thr_ne_main hr hft (n := n) rfl rfl
          exact claim_self hr hft (Or.inr ⟨htm, rfl⟩) rfl (by simp) hu
        · have hm := held_inv hr hft (n := n) (by simp [Frame.holds, es])
          obtain ⟨f', hf', h1, h2, h3⟩ := mine_claims hr hm hn (by rw [ht]; simp)
            (by rw [ht]; simp)
          refine claim_self hr hf' h3 ?_ h2 hu
          cases f' <;> first | rfl | (cases h1; done)
      subst hut
      fstep_cases h <;> exact ⟨_, List.mem_cons_self⟩

/-- The list of threads, and who has returned from fini-thread. -/
def ListD (g : G) : Prop :=
  (∀ n, n ∈ g.list → n ≠ .main → ∀ u, (g.nodes n).self = some u →
    (g.nodes n).finiD = true → Ret g u) ∧
  (∀ u k, (u, Ev.linked k) ∈ own g.tr → u ≠ mainOf g.tr ∧
    (¬ Ret g u → ∃ n, n ∈ g.list ∧ n ≠ .main ∧ (g.nodes n).self = some u))

theorem listD_inv {s : S} (hs : ReachA Clean s) (hb : born s.g.tr = false) : ListD s.g := by
  refine glob_inv (A := Clean) (GI := fun g => born g.tr = false → ListD g)
    ?_ ?_ (fun _ h => h) ?_ hs hb
  · intro _
    exact ⟨fun n h => (by cases h), fun u k h => (by cases h)⟩
  · intro s t f rest ok v g' nx sp hr hA ht hG h hb'
    have hft : f ∈ s.th t := by rw [ht]; exact List.mem_cons_self
    have hmem := mem_of_fstep h
    have hmo := mainOf_fstep h
    cases hb : born s.g.tr with
    | true =>
      obtain ⟨_, h2, _⟩ := birth_step hr ht hb
      refine ⟨fun n hl hn => ?_, fun u k hk => ?_⟩
      · exact absurd (reset_list h2 hb (fun hu => ((base_inv hr).1.2 hu).1) h hb' n hl) hn
      · rcases own_linked_new h hk with hk | ⟨_, n, e, _⟩
        · rw [own_born hb] at hk; cases hk
        · subst e; cases h2
    | false =>
      have hnr := not_resetting hr hft hb
      obtain ⟨i1, i2⟩ := hG hb
      refine ⟨fun n hl hn u hu hfd => ?_, fun u k hk => ?_⟩
      · rcases list_new h hn hl with ⟨hl0, hul⟩ | e
        · have hul : f = .ul1 n → s.g.inExit = true := fun e => by
            rcases hul e with h1 | h1
            · exact h1
            · have := (list_excl hr hn hb hl0).1; omega
          have hsk := (list_self_keep hr ht h hb hn hl0 hul).1
          rw [hsk] at hu
          rcases list_finiD hr ht h hb hn hl0 hu hul with c | c
          · rw [c] at hfd
            exact (i1 n hl0 hn u hu hfd).mono h
          · exact c
        · subst e
          have htm := thr_ne_main hr hft (n := n) rfl rfl
          have hrec := (recI_inv hr hft).2 n htm rfl
          have hself := (self_inv hr hft (Or.inr ⟨htm, rfl⟩)).2 rfl (by simp)
          have hnl : n ∉ s.g.list := fun hl0 => (list_excl hr hn hb hl0).2.2 t _ hft |>.2 rfl
          have key : (g'.nodes n).self = (s.g.nodes n).self ∧
              (g'.nodes n).finiD = (s.g.nodes n).finiD := by
            fstep_cases h
            · exact absurd hl hnl
            · exact ⟨by simp [G.emit, G.upd], by simp [G.emit, G.upd]⟩
          obtain ⟨k1, k2⟩ := key
          rw [k1, hself] at hu
          injection hu with hu; subst hu
          rw [k2] at hfd
          exact Ret.mono h (hrec.finiD hfd)
      · rw [hmo]
        rcases own_linked_new h hk with hk | ⟨e, n, e2, e3, e4⟩
        · refine ⟨(i2 u k hk).1, fun hfin => ?_⟩
          obtain ⟨n, hl, hn, hself⟩ := (i2 u k hk).2 (fun hc => hfin (hc.mono h))
          have hul : f = .ul1 n → False := fun e => by
            subst e
            have htm := thr_ne_main hr hft (n := n) rfl rfl
            have hut := claim_self hr hft (Or.inr ⟨htm, rfl⟩) rfl (by simp) hself
            subst hut
            exact hfin (Ret.mono h (((recI_inv hr hft).2 n htm rfl).done rfl))
          have hus : s.g.hasUsed = true := by
            cases hx : s.g.hasUsed with
            | true => rfl
            | false => exact absurd (((base_inv hr).1.2 hx).1 n hl) hn
          refine ⟨n, list_keep hnr hus h (fun e => hul e) hl, hn, ?_⟩
          rw [(list_self_keep hr ht h hb hn hl (fun e => (hul e).elim)).1]
          exact hself
        · subst e; subst e2
          have htm := thr_ne_main hr hft (n := n) rfl rfl
          have hself := (self_inv hr hft (Or.inr ⟨htm, rfl⟩)).2 rfl (by simp)
          exact ⟨htm, fun _ => ⟨n, e3, claims_ne_main hr hft (Or.inr rfl), e4.trans hself⟩⟩
  · intro s t real _ _ hb
    cases hb

end Libmonitor.Proc
