import Verif.Proc.OwnTok
/-!
# Who writes to a record, in clean executions
-/

namespace Libmonitor.Proc

theorem toks_mem {tok : Frame → Nat} {l : List Frame} {f : Frame} (h : f ∈ l) :
    tok f ≤ toks tok l := by
  obtain ⟨x, y, e⟩ := List.append_of_mem h
  rw [e, toks_append, toks_cons]; omega

theorem toks_mem2 {tok : Frame → Nat} {l : List Frame} {f f' : Frame} (h : f ∈ l) (h' : f' ∈ l)
    (hne : f ≠ f') : tok f + tok f' ≤ toks tok l := by
  induction l with
  | nil => cases h
  | cons a l ih =>
    rw [toks_cons]
    rcases List.mem_cons.1 h with e | h
    · rcases List.mem_cons.1 h' with e' | h2
      · exact absurd (e.trans e'.symm) hne
      · have := toks_mem (tok := tok) h2
        rw [e]; omega
    · rcases List.mem_cons.1 h' with e' | h2
      · have := toks_mem (tok := tok) h
        rw [e']; omega
      · have := ih h h2; omega

/-- Frames that own the record `n` in thread `u`. -/
def claims (g : G) (u : Tid) (f : Frame) (n : NodeId) : Prop :=
  f.newRec = some n ∨ (u ≠ mainOf g.tr ∧ f.thr = some n)

theorem claims_tok {g : G} {u : Tid} {f : Frame} {n : NodeId} (h : claims g u f n) :
    1 ≤ tokRec n (decide (u = mainOf g.tr)) f := by
  unfold tokRec
  rcases h with h | ⟨h1, h2⟩
  · rw [one_pos h]; omega
  · rw [one_pos (p := decide (u = mainOf g.tr) = false ∧ f.thr = some n) ⟨decide_eq_false h1, h2⟩]
    omega

theorem claims_live {s : S} (hs : ReachA Clean s) {u : Tid} {f : Frame} {n : NodeId}
    (hf : f ∈ s.th u) (h : claims s.g u f n) : s.g.hasUsed = true ∧ born s.g.tr = false := by
  have hB := (base_inv hs).2 u f hf
  rcases h with h | ⟨h1, h2⟩
  · have hm : f.making = true ∧ f.isPc1 = false := by
      cases f <;> first | (cases h; done) | exact ⟨rfl, rfl⟩
    have := hB.2.2.1 hm.1
    exact ⟨this.1.resolve_left (by rw [hm.2]; simp), this.2⟩
  · exact hB.1 h1

theorem claims_excl {s : S} (hs : ReachA Clean s) {u w : Tid} {f f' : Frame} {n : NodeId}
    (hn : n ≠ .main) (hf : f ∈ s.th u) (h : claims s.g u f n) (hf' : f' ∈ s.th w)
    (h' : claims s.g w f' n) : u = w ∧ f = f' := by
  obtain ⟨hu, hb⟩ := claims_live hs hf h
  obtain ⟨e1, e2⟩ := rec_excl hs hn hu hb
  have k1 := claims_tok h
  have k2 := claims_tok h'
  have huw : u = w := by
    by_cases e : u = w
    · exact e
    · have m1 := toks_mem (tok := tokRec n (decide (u = mainOf s.g.tr))) hf
      have m2 := toks_mem (tok := tokRec n (decide (w = mainOf s.g.tr))) hf'
      rcases e2 u w e with h | h <;> simp only [stk] at h <;> omega
  refine ⟨huw, ?_⟩
  subst huw
  by_cases e : f = f'
  · exact e
  · have m := toks_mem2 (tok := tokRec n (decide (u = mainOf s.g.tr))) hf hf' e
    have := e1 u
    simp only [stk] at this
    omega

theorem claims_avail {s : S} (hs : ReachA Clean s) {u : Tid} {f : Frame} {n : NodeId}
    (hn : n ≠ .main) (hf : f ∈ s.th u) (h : claims s.g u f n) : availRec s.g n = 0 := by
  obtain ⟨hu, hb⟩ := claims_live hs hf h
  obtain ⟨e1, e2⟩ := rec_excl hs hn hu hb
  have k1 := claims_tok h
  have m1 := toks_mem (tok := tokRec n (decide (u = mainOf s.g.tr))) hf
  have := e1 u
  simp only [stk] at this
  omega

theorem claims_ne_main {A : S → Lbl → Prop} {s : S} (hs : ReachA A s) {u : Tid} {f : Frame}
    {n : NodeId} (hf : f ∈ s.th u) (h : f.newRec = some n ∨ f.thr = some n) : n ≠ .main := by
  have := (rec_inv hs).2 u f hf
  intro e; subst e
  apply this
  cases f <;> simp [Frame.newRec, Frame.thr, Frame.threadRec] at h ⊢ <;> first | exact h | skip
  all_goals
    rename_i src _
    cases src <;> simp_all

theorem alloc_pos {g : G} {ok : Bool} {a : Got} (hle : g.arr ≤ g.nArr) (h : alloc g ok = some a) :
    1 ≤ availRec g a.n := by
  have := alloc_avail hle h a.n
  rw [one_pos rfl] at this; omega

/-- A record on the list is in the pool no more and not about to be linked. -/
theorem list_excl {s : S} (hs : ReachA Clean s) {n : NodeId} (hn : n ≠ .main) (hb : born s.g.tr = false)
    (hl : n ∈ s.g.list) : s.g.list.count n = 1 ∧ availRec s.g n = 0 ∧
      ∀ u f, f ∈ s.th u → f.newRec ≠ some n ∧ f.unlinked ≠ some n := by
  have hu : s.g.hasUsed = true := by
    cases hu : s.g.hasUsed with
    | true => rfl
    | false => exact absurd (((base_inv hs).1.2 hu).1 n hl) hn
  obtain ⟨e1, e2⟩ := new_excl hs hn hu hb
  have hc := List.count_pos_iff.2 hl
  have h0 := e1 0
  unfold availList at h0 e1
  refine ⟨by omega, by omega, fun u f hf => ?_⟩
  have := e1 u
  have m := toks_mem (tok := tokNew n (decide (u = mainOf s.g.tr))) hf
  simp only [stk] at this
  have hz : tokNew n (decide (u = mainOf s.g.tr)) f = 0 := by omega
  unfold tokNew at hz
  refine ⟨fun h => ?_, fun h => ?_⟩ <;> rw [one_pos h] at hz <;> omega

/-- Only the cleanup routine, the reset and the first creation remove from the list. -/
theorem list_keep {g g' : G} {t : Tid} {ok : Bool} {v : Nat} {f : Frame} {nx : Next}
    {sp : Option Frame} (hr : f.resetting = false) (hu : g.hasUsed = true)
    (h : fstep g t ok v f = some (g', nx, sp)) {n : NodeId} (hf : f ≠ .ul1 n)
    (hn : n ∈ g.list) : n ∈ g'.list := by
  cases f <;> first | (simp [Frame.resetting] at hr; done) | skip
  all_goals fstep_cases h <;> first
    | exact hn
    | exact List.mem_cons_of_mem _ hn
    | skip
  exact (List.mem_erase_of_ne (fun e => hf (by rw [e]))).2 hn

theorem not_resetting {s : S} (hs : ReachA Clean s) {u : Tid} {f : Frame} (hf : f ∈ s.th u)
    (hb : born s.g.tr = false) : f.resetting = false := by
  cases hc : f.resetting with
  | false => rfl
  | true => rw [((base_inv hs).2 u f hf).2.1 hc] at hb; cases hb

theorem born_of_live {s : S} (hs : ReachA Clean s) {u : Tid} {f : Frame} (hf : f ∈ s.th u)
    (hu : u ≠ mainOf s.g.tr) : s.g.hasUsed = true ∧ born s.g.tr = false :=
  ((base_inv hs).2 u f hf).1 hu

/-- A created thread past its registration is on the list. -/
theorem linked_inv {s : S} (hs : ReachA Clean s) {u : Tid} {f : Frame} (hf : f ∈ s.th u)
    {n : NodeId} (hn : f.thr = some n) (hul : f.unlinked = none) (hu : u ≠ mainOf s.g.tr) :
    n ∈ s.g.list := by
  refine (frames_invA (A := Clean) (GI := fun _ => True) (FI := fun g u f => ∀ n, f.thr = some n →
    f.unlinked = none → u ≠ mainOf g.tr → n ∈ g.list) trivial ?_ ?_ (fun _ h => h)
    (fun _ _ _ h => h) ?_ ?_ ?_ ?_ hs).2 u f hf n hn hul hu
  · simp [Frame.thr]
  · intro s t f rest ok v g' nx sp hr hA ht _ hF h
    have hft : f ∈ s.th t := by rw [ht]; exact List.mem_cons_self
    have hFf := hF t f hft
    have hm := mainOf_fstep h
    have hold : ∀ u h', h' ∈ s.th u → (u = t → h' ∈ rest ∨ ∀ n, f ≠ .ul1 n) → ∀ n, h'.thr = some n →
        h'.unlinked = none → u ≠ mainOf g'.tr → n ∈ g'.list := by
      intro u h' hm' hor n hn hul hu
      rw [hm] at hu
      obtain ⟨hus, hb⟩ := born_of_live hr hm' hu
      refine list_keep (not_resetting hr hft hb) hus h ?_ (hF u h' hm' n hn hul hu)
      intro e; subst e
      have htm : t ≠ mainOf s.g.tr :=
        (((base_inv hr).2 t _ hft).2.2.2 rfl).resolve_right (by simp [Frame.isBtApp])
      obtain ⟨e1, e2⟩ := claims_excl hr (claims_ne_main hr hm' (Or.inr hn)) hm' (Or.inr ⟨hu, hn⟩) hft
        (Or.inr ⟨htm, rfl⟩)
      subst e1; subst e2
      have hsh := shape_inv hr u
      rw [ht] at hsh
      rcases hor rfl with h | h
      · rw [hsh.2.1 rfl, List.mem_singleton] at h; cases h
      · exact h _ rfl
    refine ⟨trivial, fun u h' hm' hu => hold u h' hm' (fun e => Or.inl (hu e)), ?_, ?_, ?_, ?_⟩
    · intro e
      by_cases hul : ∃ n, f = .ul1 n
      · obtain ⟨m, hul⟩ := hul
        subst e; subst hul
        fstep_cases h
        exact hFf
      · exact hold t f hft (fun _ => Or.inr (fun n e => hul ⟨n, e⟩))
    · intro l e h' hm' n hn hul hu
      subst e
      rw [hm] at hu
      obtain ⟨hus, hb⟩ := born_of_live hr hft hu
      have hfn := ((tsd_new h hm').2 n hn).2
      have hnr := not_resetting hr hft hb
      cases hfu : f.unlinked with
      | none =>
        refine list_keep hnr hus h ?_ (hFf n hfn hfu hu)
        intro e; subst e
        fstep_cases h <;> cases hm'
      | some m =>
        cases f <;> first | (cases hfu; done) | skip
        all_goals
          fstep_cases h <;> simp only [List.mem_cons, List.not_mem_nil, or_false] at hm' <;>
            subst hm' <;> first | (cases hul; done) | (cases hn; done) | skip
        · injection hfn with hfn; subst hfn
          exact List.mem_cons_self
    · intro h' e n hn hul hu
      subst e
      cases f <;> fstep_cases h <;> first | (cases hn; done) | (cases hul; done)
    · intro e h' hm'
      subst e
      have hnul : ∀ n, f ≠ .ul1 n := by
        intro n e; subst e; fstep_cases h
      rcases unwound_cases rest with e | ⟨f', m, hf', ha, e⟩
      · rw [e, List.mem_singleton] at hm'; subst hm'; simp [Frame.thr]
      · rw [e] at hm'
        rcases List.mem_cons.1 hm' with hm' | hm'
        · subst hm'
          have := hold t f' (by rw [ht]; exact List.mem_cons_of_mem _ hf') (fun _ => Or.inr hnul) m
            (thr_of_armed ha).1 (by cases f' <;> first | rfl | cases ha)
          intro n hn _ hu
          injection hn with hn; subst hn
          exact this hu
        · rw [List.mem_singleton] at hm'; subst hm'; simp [Frame.thr]
  · intro s t i h hr hA _ _ hF _ _ hp _
    cases h <;> simp [Frame.pushable, Frame.thr] at hp ⊢
  · intro s t hr hA _ hne hF h hm
    rcases unwound_cases (s.th t) with e | ⟨f', m, hf', ha, e⟩
    · rw [e, List.mem_singleton] at hm; subst hm; simp [Frame.thr]
    · rw [e] at hm
      rcases List.mem_cons.1 hm with hm | hm
      · subst hm
        have := hF t f' hf' m (thr_of_armed ha).1 (by cases f' <;> first | rfl | cases ha)
        intro n hn _ hu
        injection hn with hn; subst hn
        exact this hu
      · rw [List.mem_singleton] at hm; subst hm; simp [Frame.thr]
  · intro s t c d rest hr hA ht _ hF
    exact ⟨trivial, fun h hm n _ _ hu => absurd rfl hu⟩
  · intro s t rest hr hA ht _ hF
    exact ⟨trivial, fun h hm n _ _ hu => absurd rfl hu⟩

end Libmonitor.Proc
