import Verif.Proc.Ignore
/-!
# The value that post-create gets
-/

namespace Libmonitor.Proc

/-- The cleanup routine goes on only if init-thread has returned. -/
theorem cleanup_inited {s : S} (hs : ReachA Clean s) {u : Tid} {f : Frame} (hf : f ∈ s.th u)
    (hc : f.cleanup = true) (hcl : ∀ n, f ≠ .cl0 n) (hu : u ≠ mainOf s.g.tr) :
    ∃ k v, (u, .initThreadRet k v) ∈ s.g.tr := by
  refine (frames_invA (A := Clean) (GI := fun _ => True)
    (FI := fun g u f => f.cleanup = true → (∀ n, f ≠ .cl0 n) → u ≠ mainOf g.tr →
      ∃ k v, (u, Ev.initThreadRet k v) ∈ g.tr) trivial (fun h => by cases h) ?_
    (fun _ h => h) (fun _ _ _ h => h) ?_ ?_ ?_ ?_ hs).2 u f hf hc hcl hu
  · intro s t f rest ok v g' nx sp hr hA ht _ hF h
    have hft : f ∈ s.th t := by rw [ht]; exact List.mem_cons_self
    have hmo := mainOf_fstep h
    have hmem := mem_of_fstep h
    have hold : ∀ u h', h' ∈ s.th u → h'.cleanup = true → (∀ n, h' ≠ .cl0 n) → u ≠ mainOf g'.tr →
        ∃ k v, (u, .initThreadRet k v) ∈ g'.tr := by
      intro u h' hm h1 h2 h3
      rw [hmo] at h3
      obtain ⟨k, v, hk⟩ := hF u h' hm h1 h2 h3
      exact ⟨k, v, hmem _ hk⟩
    refine ⟨trivial, fun u h' hm _ => hold u h' hm, fun _ => hold t f hft, ?_, ?_, ?_⟩
    · intro l e h' hm h1 h2 h3
      subst e
      rw [hmo] at h3
      by_cases hc : f.cleanup = true ∧ ∀ n, f ≠ .cl0 n
      · obtain ⟨k, v, hk⟩ := hF t f hft hc.1 hc.2 h3
        exact ⟨k, v, hmem _ hk⟩
      · have hR := (recI_inv hr hft).2
        cases f <;> fstep_cases h <;>
              simp only [List.mem_cons, List.not_mem_nil, or_false] at hm <;>
              (try (rcases hm with hm | hm)) <;> (try subst hm) <;> first
              | (cases h1; done)
              | (cases hm; done)
              | exact absurd rfl (h2 _)
              | skip
        · exact absurd ⟨h1, fun _ => nofun⟩ hc
        · rename_i hsrc
          exact absurd ⟨by simp [Frame.cleanup, hsrc], fun _ => nofun⟩ hc
        · rename_i hmf
          have hR := hR _ h3 rfl
          simp only [mayFini, Bool.and_eq_true] at hmf
          obtain ⟨⟨⟨⟨_, ha⟩, _⟩, _⟩, _⟩ := hmf
          exact ⟨_, _, hR.inited (Or.inr ha)⟩
        · exact absurd ⟨rfl, fun _ => nofun⟩ hc
    · intro h' e h1
      cases f <;> fstep_cases h <;> cases e <;> cases h1
    · intro _ h' hm h1 h2
      rcases unwound_cases rest with e | ⟨_, n, _, _, e⟩ <;> rw [e] at hm <;> simp at hm <;>
        (try (rcases hm with hm | hm)) <;> (try subst hm) <;> first
        | (cases h1; done)
        | exact absurd rfl (h2 _)
  · intro s t i h _ _ _ _ _ _ _ hp _ h1
    cases h <;> first | (cases h1; done) | (simp [Frame.pushable] at hp; done)
  · intro s t _ _ _ _ _ h' hm h1 h2
    rcases unwound_cases (s.th t) with e | ⟨_, n, _, _, e⟩ <;> rw [e] at hm <;> simp at hm <;>
      (try (rcases hm with hm | hm)) <;> (try subst hm) <;> first
      | (cases h1; done)
      | exact absurd rfl (h2 _)
  · intro s t c d rest _ _ _ _ _
    exact ⟨trivial, fun h hm _ _ hu => absurd rfl hu⟩
  · intro s t rest _ _ _ _ _
    exact ⟨trivial, fun h hm _ _ hu => absurd rfl hu⟩

/-- A record is given back only after fini-thread has returned. -/
theorem unlink_finished {s : S} (hs : ReachA Clean s) {u : Tid} {n : NodeId}
    (hf : .ul0 n ∈ s.th u ∨ .ul1 n ∈ s.th u) : ∃ k, (u, .finiThreadRet k) ∈ s.g.tr := by
  have key := (frames_invA (A := Clean) (GI := fun _ => True)
    (FI := fun g u f => (∃ n, f = .ul0 n ∨ f = .ul1 n) → ∃ k, (u, Ev.finiThreadRet k) ∈ g.tr)
    trivial (fun ⟨_, h⟩ => by rcases h with h | h <;> cases h) ?_
    (fun _ h => h) (fun _ _ _ h => h) ?_ ?_ ?_ ?_ hs).2
  · rcases hf with hf | hf
    · exact key u _ hf ⟨n, .inl rfl⟩
    · exact key u _ hf ⟨n, .inr rfl⟩
  · intro s t f rest ok v g' nx sp hr hA ht _ hF h
    have hft : f ∈ s.th t := by rw [ht]; exact List.mem_cons_self
    have hmem := mem_of_fstep h
    have hold : ∀ u h', h' ∈ s.th u → (∃ n, h' = .ul0 n ∨ h' = .ul1 n) →
        ∃ k, (u, .finiThreadRet k) ∈ g'.tr := fun u h' hm h1 =>
      (hF u h' hm h1).imp fun _ hk => hmem _ hk
    refine ⟨trivial, fun u h' hm _ => hold u h' hm, fun _ => hold t f hft, ?_, ?_, ?_⟩
    · intro l e h' hm h1
      subst e
      by_cases hc : ∃ n, f = .ul0 n ∨ f = .ul1 n
      · exact hold t f hft hc
      · obtain ⟨n, rfl | rfl⟩ := h1 <;> cases f <;> fstep_cases h <;>
          simp only [List.mem_cons, List.not_mem_nil, or_false, reduceCtorEq, or_self] at hm <;> first
          | exact hm.elim
          | exact ⟨_, List.mem_cons_self⟩
          | exact absurd ⟨_, .inl rfl⟩ hc
          | exact absurd ⟨_, .inr rfl⟩ hc
    · intro h' e h1
      obtain ⟨n, rfl | rfl⟩ := h1 <;> cases f <;> fstep_cases h <;> cases e
    · intro _ h' hm h1
      obtain ⟨n, rfl | rfl⟩ := h1 <;>
        rcases unwound_cases rest with e | ⟨_, n, _, _, e⟩ <;> rw [e] at hm <;> simp at hm
  · intro s t i h _ _ _ _ _ _ _ hp _ h1
    obtain ⟨n, rfl | rfl⟩ := h1 <;> simp [Frame.pushable] at hp
  · intro s t _ _ _ _ _ h' hm h1
    obtain ⟨n, rfl | rfl⟩ := h1 <;>
      rcases unwound_cases (s.th t) with e | ⟨_, n, _, _, e⟩ <;> rw [e] at hm <;> simp at hm
  · intro s t c d rest _ _ ht _ hF
    refine ⟨trivial, fun h hm h1 => ?_⟩
    have : h ∈ s.th t := by
      rw [ht]
      obtain ⟨n, rfl | rfl⟩ := h1 <;> simpa using hm
    exact (hF t h this h1).imp fun _ => List.mem_cons_of_mem _
  · intro s t rest _ _ ht _ hF
    refine ⟨trivial, fun h hm h1 => ?_⟩
    have : h ∈ s.th t := by
      rw [ht]
      obtain ⟨n, rfl | rfl⟩ := h1 <;> simpa using hm
    exact (hF t h this h1).imp fun _ => List.mem_cons_of_mem _

theorem own_born {tr : Hist} (hb : born tr = true) : own tr = [] := by
  cases tr with
  | nil => rfl
  | cons x tr =>
    obtain ⟨u, x⟩ := x
    simp only [born] at hb
    simp only [own, hb, if_true]

theorem out_new {g g' : G} {t : Tid} {ok : Bool} {v : Nat} {f : Frame} {nx : Next}
    {sp : Option Frame} (h : fstep g t ok v f = some (g', nx, sp)) {c : Nat} {w : Tid} {e : Ev}
    (hm : (w, e) ∈ own g'.tr) (he : e.isOutcome c = true) :
    (w, e) ∈ own g.tr ∨ ∃ my n st ar d, f = .pc7 c my n st ar d := by
  cases f <;> fstep_cases h <;> first
    | exact Or.inl hm
    | (simp only [G.emit, G.upd, resetList_tr, own, Ev.isForked, Bool.false_eq_true, if_false,
        List.mem_cons, Prod.mk.injEq] at hm
       first
       | (rcases hm with ⟨_, h2⟩ | hm
          · subst h2
            first
            | (cases he; done)
            | (simp only [Ev.isOutcome, decide_eq_true_eq] at he
               subst he
               exact Or.inr ⟨_, _, _, _, _, rfl⟩)
          · exact Or.inl hm)
       | (rcases hm with ⟨_, h2⟩ | ⟨_, h2⟩ | hm
          · subst h2; cases he
          · subst h2; cases he
          · exact Or.inl hm))

/-- Once a thread has been created in this process the thread list is in use. -/
theorem out_used {s : S} (hs : ReachA Clean s) {c : Nat} {w : Tid} {e : Ev}
    (hm : (w, e) ∈ own s.g.tr) (he : e.isOutcome c = true) :
    s.g.hasUsed = true ∧ born s.g.tr = false := by
  have hb : born s.g.tr = false := by
    cases hb : born s.g.tr with
    | false => rfl
    | true => rw [own_born hb] at hm; cases hm
  refine ⟨?_, hb⟩
  clear hb
  revert hm he
  refine glob_inv (A := Clean) (GI := fun g => (w, e) ∈ own g.tr → e.isOutcome c = true →
    g.hasUsed = true) (fun h => by cases h) ?_ (fun _ h => h) (fun _ _ h => by cases h) hs
  intro s t f rest ok v g' nx sp hr hA ht hG h hm he
  have hft : f ∈ s.th t := by rw [ht]; exact List.mem_cons_self
  rcases out_new h hm he with hm | ⟨my, n, st, ar, d, e2⟩
  · have hu := hG hm he
    cases hres : f.resetting with
    | false => exact hasUsed_keep hres h hu
    | true =>
      exfalso
      have hb := ((base_inv hr).2 t f hft).2.1 hres
      rw [own_born hb] at hm; cases hm
  · have hB := ((base_inv hr).2 t f hft).2.2.1
    subst e2
    have := (hB rfl).1.resolve_left (by simp [Frame.isPc1])
    fstep_cases h <;> exact this

theorem avail_go {g g' : G} {t : Tid} {ok : Bool} {v : Nat} {f : Frame} {nx : Next}
    {sp : Option Frame} (hle : g.arr ≤ g.nArr) (hres : f.resetting = false) (hu : g.hasUsed = true)
    (h : fstep g t ok v f = some (g', nx, sp)) {n : NodeId} (h1 : f ≠ .ul1 n) :
    availRec g' n ≤ availRec g n := by
  cases f <;> first | (simp [Frame.resetting] at hres; done) | skip
  all_goals fstep_cases h
  all_goals try exact Nat.le_refl (availRec g n)
  all_goals try (rename_i hn; exact absurd hu hn)
  · rename_i m _ _
    have e : m ≠ n := fun e => h1 (by rw [e])
    show (m :: g.free).count n + one (unalloc g.arr g.pos g.nArr n = true) ≤ availRec g n
    rw [List.count_cons]
    simp [availRec, e]
  · rename_i a ha
    have := alloc_avail hle ha n
    show a.free.count n + one (unalloc a.arr a.pos a.nArr n = true) ≤ availRec g n
    simp [one] at this ⊢
    omega

/-- While the new thread's fini-thread has not returned, its record holds the value from
pre-create or the value from its init-thread; if the thread could not be created, nobody has the
record. -/
def PostI (s : S) : Prop :=
  ∀ t c my n d e, .pc8 c my n d ∈ s.th t → (t, e) ∈ own s.g.tr → e.isOutcome c = true →
    (∃ u st ar k, (t, .spawn c u n st ar d) ∈ s.g.tr ∧ (u, .finiThreadRet k) ∈ s.g.tr) ∨
    (((s.g.nodes n).data = d ∨ ∃ u st ar k, (t, .spawn c u n st ar d) ∈ s.g.tr ∧
        (u, .initThreadRet k (s.g.nodes n).data) ∈ s.g.tr) ∧ availRec s.g n = 0 ∧ n ≠ .main ∧
      ∀ w f, f ∈ s.th w → claims s.g w f n →
        (∃ st ar, (t, .spawn c w n st ar d) ∈ s.g.tr) ∧ f.newRec = none)

/-- The step of an old call. -/
theorem post_old {s : S} (hs : ReachA Clean s) {t : Tid} {f : Frame} {rest : List Frame}
    {ok : Bool} {v : Nat} {g' : G} {nx : Next} {sp : Option Frame} (ht : s.th t = f :: rest)
    (h : fstep s.g t ok v f = some (g', nx, sp)) (hu : s.g.hasUsed = true)
    (hres : f.resetting = false) {n : NodeId} {d : Data} {P : Tid → Prop}
    (h1 : (s.g.nodes n).data = d ∨ ∃ u k, P u ∧ (u, .initThreadRet k (s.g.nodes n).data) ∈ s.g.tr)
    (h2 : availRec s.g n = 0) (h3 : n ≠ .main)
    (h4 : ∀ w f, f ∈ s.th w → claims s.g w f n → P w ∧ f.newRec = none) :
    (∃ u k, P u ∧ (u, .finiThreadRet k) ∈ g'.tr) ∨
    (((g'.nodes n).data = d ∨ ∃ u k, P u ∧ (u, .initThreadRet k (g'.nodes n).data) ∈ g'.tr) ∧
      availRec g' n = 0 ∧
      (∀ l, nx = .go l → ∀ h' ∈ l, claims g' t h' n → P t ∧ h'.newRec = none) ∧
      ∀ h', sp = some h' → ¬ claims g' s.g.nextTid h' n) := by
  have hft : f ∈ s.th t := by rw [ht]; exact List.mem_cons_self
  have hmem := mem_of_fstep h
  by_cases hi : ∃ u k, P u ∧ (u, Ev.finiThreadRet k) ∈ g'.tr
  · exact Or.inl hi
  right
  have hnul : f ≠ .ul1 n := by
    intro e; subst e
    have htm := thr_ne_main hs hft rfl rfl
    obtain ⟨k, hk⟩ := unlink_finished hs (.inr hft)
    exact hi ⟨t, k, (h4 t _ hft (Or.inr ⟨htm, rfl⟩)).1, hmem _ hk⟩
  have hsame : (g'.nodes n).data = (s.g.nodes n).data → (g'.nodes n).data = d ∨
      ∃ u k, P u ∧ (u, Ev.initThreadRet k (g'.nodes n).data) ∈ g'.tr := by
    intro e
    rw [e]
    exact h1.imp_right fun ⟨u, k, hp, hk⟩ => ⟨u, k, hp, hmem _ hk⟩
  have hnew : f.newRec ≠ some n := by
    intro e
    have := (h4 t f hft (Or.inl e)).2
    rw [e] at this; cases this
  have hal : ∀ a c my st ar d, f = .mk1 c my st ar d → alloc s.g ok = some a → a.n ≠ n := by
    intro a c my st ar d _ ha e
    have := alloc_pos (arr_inv hs) ha
    rw [e] at this; omega
  have hcl : ∀ u h', claims g' u h' n ↔ claims s.g u h' n := fun u h' => claims_fstep h u h' n
  refine ⟨?_, ?_, ?_, ?_⟩
  · by_cases hsh : f.shapes n
    · rcases hsh with e | e | e | e | e | ⟨_, _, _, _, _, e⟩
      · subst e; fstep_cases h; exact hsame (by simp [G.upd])
      · subst e; fstep_cases h <;> exact hsame (by simp [G.upd, G.emit])
      · subst e
        have htm := thr_ne_main hs hft rfl rfl
        have hP := (h4 t _ hft (Or.inr ⟨htm, rfl⟩)).1
        fstep_cases h
        exact .inr ⟨t, (s.g.nodes n).tid, hP, by simp [G.upd, G.emit]⟩
      · subst e; fstep_cases h; exact hsame (by simp [G.upd])
      · exact absurd e hnul
      · subst e; exact absurd rfl hnew
    · exact hsame (core_eq (core_keep h h3 hsh hal).1).2.2.2.1
  · have := avail_go (arr_inv hs) hres hu h hnul
    omega
  · intro l e h' hm hc
    subst e
    rw [hcl] at hc
    rcases claims_new h hm hc with k | ⟨c, my, st, ar, d, e1, e2⟩
    · refine ⟨(h4 t f hft k).1, ?_⟩
      have hthr : f.thr = some n := k.elim (fun e => absurd e hnew) And.right
      rcases hc with hc | hc
      · subst_vars
        cases f <;> first | (cases hthr; done) | skip
        all_goals
          fstep_cases h <;> simp only [List.mem_cons, List.not_mem_nil, or_false] at hm <;>
          (try (rcases hm with hm | hm)) <;> (try subst hm) <;> first
          | (cases hc; done)
          | (cases hm; done)
      · have := hc.2
        cases h' <;> first | rfl | cases this
    · exfalso
      subst e1; subst e2
      fstep_cases h
      rename_i a ha
      rw [List.mem_singleton] at hm
      injection hm with _ _ hm
      exact hal _ _ _ _ _ _ rfl ha hm.symm
  · intro h' e hc
    subst e
    rw [hcl] at hc
    cases f <;> fstep_cases h
    · rcases hc with hc | hc
      · cases hc
      · have := hc.2
        exact hnew this
    · rcases hc with hc | hc
      · cases hc
      · cases hc.2

/-- `applyRes_mem`, and the frame that made the step is gone. -/
theorem applyRes_mem_rest {s : S} {t : Tid} {f : Frame} {rest : List Frame} {g : G} {nx : Next}
    {sp : Option Frame} (ht : s.th t = f :: rest) {u : Tid} {h : Frame}
    (hm : h ∈ (applyRes s t rest (g, nx, sp)).th u) :
    (h ∈ s.th u ∧ (u = t → nx = .die ∨ h ∈ rest)) ∨ (∃ l, nx = .go l ∧ u = t ∧ h ∈ l) ∨
      (sp = some h ∧ u = s.g.nextTid) ∨
      (u = t ∧ (h = .tdtor ∨ ∃ f' n, f' ∈ s.th t ∧ f'.armed = some n ∧ h = .cl0 n)) := by
  by_cases hut : u = t
  · subst hut
    cases nx with
    | die =>
      rcases applyRes_mem ht hm with k | k
      · exact Or.inl ⟨k, fun _ => Or.inl rfl⟩
      · exact Or.inr k
    | go l =>
      rcases mem_setTh hm with ⟨_, hm⟩ | ⟨e, _⟩
      · rcases List.mem_append.1 hm with hm | hm
        · exact Or.inr (Or.inl ⟨l, rfl, rfl, hm⟩)
        · exact Or.inl ⟨by rw [ht]; exact List.mem_cons_of_mem _ hm, fun _ => Or.inr hm⟩
      · exact absurd rfl e
    | unwind =>
      rcases mem_setTh hm with ⟨_, hm⟩ | ⟨e, _⟩
      · rcases unwound_cases rest with hu | ⟨f', n, hf', ha, hu⟩
        · rw [hu, List.mem_singleton] at hm
          exact Or.inr (Or.inr (Or.inr ⟨rfl, Or.inl hm⟩))
        · rw [hu] at hm
          rcases List.mem_cons.1 hm with hm | hm
          · exact Or.inr (Or.inr (Or.inr ⟨rfl, Or.inr
              ⟨f', n, by rw [ht]; exact List.mem_cons_of_mem _ hf', ha, hm⟩⟩))
          · rw [List.mem_singleton] at hm
            exact Or.inr (Or.inr (Or.inr ⟨rfl, Or.inl hm⟩))
      · exact absurd rfl e
  · rcases applyRes_mem ht hm with k | k
    · exact Or.inl ⟨k, fun e => absurd e hut⟩
    · exact Or.inr k

theorem post_inv {s : S} (hs : ReachA Clean s) : PostI s := by
  induction hs with
  | init =>
    intro t c my n d e hm
    simp only at hm
    split at hm
    · rw [List.mem_singleton] at hm; cases hm
    · cases hm
  | @next s s' l hr hA hnx ih =>
    have push : ∀ {t : Tid} {l : List Frame}, (∀ h ∈ l, h ∈ s.th t ∨ h.pushable = true ∨
        ∃ f' n, f' ∈ s.th t ∧ f'.armed = some n ∧ h = .cl0 n) →
        PostI { s with th := setTh s.th t l } := by
      intro t l hl u c my n d e hm he1 he2
      have hm : .pc8 c my n d ∈ s.th u := by
        rcases mem_setTh hm with ⟨e1, hm⟩ | ⟨_, hm⟩
        · rcases hl _ hm with k | k | ⟨_, _, _, _, k⟩
          · rw [e1]; exact k
          · cases k
          · cases k
        · exact hm
      refine (ih u c my n d e hm he1 he2).imp_right (fun ⟨h1, h2, h3, h4⟩ => ⟨h1, h2, h3, ?_⟩)
      intro w f hf hc
      rcases mem_setTh hf with ⟨e1, hf2⟩ | ⟨_, hf⟩
      · subst e1
        rcases hl _ hf2 with k | k | ⟨f', m, k1, k2, k3⟩
        · exact h4 _ _ k hc
        · exfalso
          rcases hc with hc | ⟨_, hc⟩ <;> cases f <;>
            first | (cases hc; done) | (simp [Frame.pushable] at k; done)
        · subst k3
          have hc' : claims s.g w f' n := by
            rcases hc with hc | ⟨hc1, hc2⟩
            · cases hc
            · injection hc2 with hc2; subst hc2
              exact Or.inr ⟨hc1, (thr_of_armed k2).1⟩
          exact ⟨(h4 _ _ k1 hc').1, rfl⟩
      · exact h4 _ _ hf hc
    have hm := move_of_next hnx
    cases hm with
    | @go t f rest ok v r hd ht hf =>
      obtain ⟨g', nx, sp⟩ := r
      have hft : f ∈ s.th t := by rw [ht]; exact List.mem_cons_self
      have hmem := mem_of_fstep hf
      have key : ∀ u c my n d e, .pc8 c my n d ∈ (applyRes s t rest (g', nx, sp)).th u →
          (u, e) ∈ own g'.tr → e.isOutcome c = true →
          (∃ w st ar k, (u, .spawn c w n st ar d) ∈ g'.tr ∧ (w, .finiThreadRet k) ∈ g'.tr) ∨
          (((g'.nodes n).data = d ∨ ∃ w st ar k, (u, .spawn c w n st ar d) ∈ g'.tr ∧
              (w, .initThreadRet k (g'.nodes n).data) ∈ g'.tr) ∧ availRec g' n = 0 ∧ n ≠ .main ∧
            ∀ w f', f' ∈ (applyRes s t rest (g', nx, sp)).th w → claims g' w f' n →
              (∃ st ar, (u, .spawn c w n st ar d) ∈ g'.tr) ∧ f'.newRec = none) := by
        intro u c my n d e hm he1 he2
        rcases applyRes_mem_rest ht hm with ⟨k, k'⟩ | ⟨l, e1, e2, k⟩ | ⟨k, _⟩ | ⟨_, k | ⟨_, _, _, _, k⟩⟩
        · rcases out_new hf he1 he2 with he | ⟨my', n', st', ar', d', e3⟩
          · obtain ⟨hu, hb⟩ := out_used hr he he2
            rcases ih u c my n d e k he he2 with ⟨w, st, ar, k, j1, j2⟩ | ⟨h1, h2, h3, h4⟩
            · exact Or.inl ⟨w, st, ar, k, hmem _ j1, hmem _ j2⟩
            · rcases post_old hr ht hf hu (not_resetting hr hft hb)
                (h1.imp_right fun ⟨w, st, ar, k, i1, i2⟩ => ⟨w, k, ⟨st, ar, i1⟩, i2⟩) h2 h3 h4 with
                ⟨w, k, ⟨st, ar, j1⟩, j2⟩ | ⟨j1, j2, j3, j4⟩
              · exact Or.inl ⟨w, st, ar, k, hmem _ j1, j2⟩
              · refine Or.inr ⟨j1.imp_right fun ⟨w, k, ⟨st, ar, i1⟩, i2⟩ => ⟨w, st, ar, k, hmem _ i1, i2⟩,
                  j2, h3, ?_⟩
                intro w f' hf' hc
                have hc0 := (claims_fstep hf w f' n).1 hc
                have mono : (∃ st ar, (u, Ev.spawn c w n st ar d) ∈ s.g.tr) →
                    ∃ st ar, (u, Ev.spawn c w n st ar d) ∈ g'.tr :=
                  fun ⟨st, ar, h⟩ => ⟨st, ar, hmem _ h⟩
                rcases applyRes_mem_rest ht hf' with ⟨i, _⟩ | ⟨l, e1, e2, i⟩ | ⟨i, i2⟩ |
                  ⟨i0, i | ⟨f2, m, i1, i2, i3⟩⟩
                · exact (h4 w f' i hc0).imp_left mono
                · subst e2; exact (j3 l e1 f' i hc).imp_left mono
                · subst i2; exact absurd hc (j4 f' i)
                · subst i
                  rcases hc with hc | ⟨_, hc⟩ <;> cases hc
                · subst i3
                  have hc' : claims s.g w f2 n := by
                    rcases hc0 with hc | ⟨hc1, hc2⟩
                    · cases hc
                    · injection hc2 with hc2; subst hc2
                      exact Or.inr ⟨hc1, (thr_of_armed i2).1⟩
                  exact ⟨mono (h4 w f2 (i0 ▸ i1) hc').1, rfl⟩
          · exfalso
            subst e3
            obtain ⟨-, h2, h3⟩ := oneTok_holder (oneTok_postCreate c hr) ht (by simp [tokPostC])
            have h1 : tokPostC c (.pc8 c my n d) = 1 := by simp [tokPostC]
            by_cases eu : u = t
            · have k2 : .pc8 c my n d ∈ rest := by
                rcases k' eu with k2 | k2
                · subst k2; fstep_cases hf
                · exact k2
              have := toks_mem (tok := tokPostC c) k2; omega
            · have := toks_mem (tok := tokPostC c) k
              have := h3 u eu
              omega
        · subst e1; subst e2
          right
          have hpc : ∃ st ar, f = .pc7 c my n st ar d := by
            cases f <;> fstep_cases hf <;>
              simp only [List.mem_cons, List.not_mem_nil, or_false, reduceCtorEq] at k <;>
              (first | (injection k with k1 k2 k3 k4; subst k1; subst k2; subst k3; subst k4
                        exact ⟨_, _, rfl⟩)
                     | (exfalso; exact k.elim id id) | (exact k.elim))
          obtain ⟨st, ar, e3⟩ := hpc
          subst e3
          have hcf : claims s.g u (.pc7 c my n st ar d) n := Or.inl rfl
          have hn : n ≠ .main := claims_ne_main hr hft (Or.inl rfl)
          have hnew := (recI_inv hr hft).1 n rfl
          have hav := claims_avail hr hn hft hcf
          refine ⟨?_, ?_, hn, ?_⟩
          · have := hnew.2.2.2.2.2.2
            left
            fstep_cases hf <;> exact this
          · fstep_cases hf <;> exact hav
          · intro w f' hf' hc
            have hc0 := (claims_fstep hf w f' n).1 hc
            have excl : ∀ {f2}, f2 ∈ s.th w → (w = u → f2 ∈ rest) → claims s.g w f2 n → False := by
              intro f2 i1 i2 i3
              obtain ⟨e1, e2⟩ := claims_excl hr hn i1 i3 hft hcf
              exact claims_rest hr ht (i2 e1) hn (e1 ▸ i3) hcf
            rcases applyRes_mem_rest ht hf' with ⟨i, i'⟩ | ⟨l, e1, e2, i⟩ | ⟨i, i2⟩ |
              ⟨i0, i | ⟨f2, m, i1, i2, i3⟩⟩
            · exact (excl i (fun e => (i' e).resolve_left nofun) hc0).elim
            · exfalso
              injection e1 with e1; subst e1
              fstep_cases hf <;> rw [List.mem_singleton] at i <;> subst i <;>
                rcases hc with hc | ⟨_, hc⟩ <;> cases hc
            · subst i2; subst i
              fstep_cases hf
              exact ⟨⟨st, ar, List.mem_cons_self⟩, rfl⟩
            · subst i
              rcases hc with hc | ⟨_, hc⟩ <;> cases hc
            · subst i3
              exfalso
              have hc' : claims s.g w f2 n := by
                rcases hc0 with hc | ⟨hc1, hc2⟩
                · cases hc
                · injection hc2 with hc2; subst hc2
                  exact Or.inr ⟨hc1, (thr_of_armed i2).1⟩
              subst i0
              have := (claims_excl hr hn i1 hc' hft hcf).2
              subst this; cases i2
        · subst k; cases f <;> fstep_cases hf
        · cases k
        · cases k
      intro u c my n d e hm he1 he2
      have hg : (applyRes s t rest (g', nx, sp)).g.tr = g'.tr ∧
          (applyRes s t rest (g', nx, sp)).g.nodes = g'.nodes ∧
          (∀ n, availRec (applyRes s t rest (g', nx, sp)).g n = availRec g' n) := by
        rw [applyRes_g]; split <;> exact ⟨rfl, rfl, fun _ => rfl⟩
      obtain ⟨hg1, hg2, hg3⟩ := hg
      unfold claims
      rw [hg1] at he1 ⊢
      rw [hg2, hg3]
      exact key u c my n d e hm he1 he2
    | @call t f rest a hd ht hf =>
      refine push (fun h hm => ?_)
      rcases List.mem_append.1 hm with hm | hm
      · exact Or.inr (Or.inl (api_pushable hm))
      · exact Or.inl (by rw [ht]; exact hm)
    | @unwind t f rest hd ht hf =>
      refine push (fun h hm => ?_)
      rcases unwound_cases (f :: rest) with hu | ⟨f', n, hf', ha, hu⟩
      · rw [hu, List.mem_singleton] at hm
        rw [hm]; exact Or.inr (Or.inl rfl)
      · rw [hu] at hm
        rcases List.mem_cons.1 hm with hm | hm
        · exact Or.inr (Or.inr ⟨f', n, by rw [ht]; exact hf', ha, hm⟩)
        · rw [List.mem_singleton] at hm
          rw [hm]; exact Or.inr (Or.inl rfl)
    | @deliver t f rest hd ht hon hh =>
      refine push (fun h hm => ?_)
      rcases List.mem_cons.1 hm with hm | hm
      · rw [hm]; exact Or.inr (Or.inl rfl)
      · exact Or.inl (by rw [ht]; exact hm)
    | @interrupt t f rest hd ht =>
      refine push (fun h hm => ?_)
      rcases List.mem_cons.1 hm with hm | hm
      · rw [hm]; exact Or.inr (Or.inl rfl)
      · exact Or.inl (by rw [ht]; exact hm)
    | @fork t c d rest hd ht => intro _ _ _ _ _ _ _ h; cases h
    | @realFork t rest hd ht => intro _ _ _ _ _ _ _ h; cases h

/-- The value post-create gets, if the real pthread_create returned in this process. -/
def postValue (old : Hist) (t : Tid) : Ev → Prop
  | .postCreate c d => ∀ e, (t, e) ∈ own old → e.isOutcome c = true → (t, .preCreateRet c d) ∈ old ∨
      ∃ u n st ar d' k, (t, .spawn c u n st ar d') ∈ old ∧
        ((u, .initThreadRet k d) ∈ old ∨ (u, .finiThreadRet k) ∈ old)
  | _ => True

theorem postValue_inv {s : S} (hs : ReachA Clean s) : Always postValue s.g.tr := by
  refine glob_inv (GI := fun g => Always postValue g.tr) trivial ?_ (fun _ h => h)
    (fun _ h => ⟨trivial, h⟩) hs
  intro s t f rest ok v g' nx sp hr hA ht hG h
  have hft : f ∈ s.th t := by rw [ht]; exact List.mem_cons_self
  cases f <;> fstep_cases h <;> first
    | exact hG
    | exact ⟨trivial, hG⟩
    | exact ⟨trivial, trivial, hG⟩
    | (simp only [G.emit, G.upd, resetList_tr]; exact ⟨trivial, hG⟩)
    | skip
  refine ⟨fun e h1 h2 => ?_, hG⟩
  rcases post_inv hr _ _ _ _ _ e hft h1 h2 with ⟨u, st, ar, k, j1, j2⟩ | ⟨j | ⟨u, st, ar, k, j1, j2⟩, _⟩
  · exact Or.inr ⟨u, _, st, ar, _, k, j1, .inr j2⟩
  · left
    rw [j]
    exact ((life_order hr).2 t _ hft).1
  · exact Or.inr ⟨u, _, st, ar, _, k, j1, .inl j2⟩

end Libmonitor.Proc
