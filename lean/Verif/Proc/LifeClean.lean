import Verif.Proc.LifeLive
/-!
# Clean executions: what callbacks and queries report
-/

namespace Libmonitor.Proc

theorem mainRec_go {g g' : G} {t : Tid} {ok : Bool} {v : Nat} {f : Frame} {nx : Next}
    {sp : Option Frame} (h : fstep g t ok v f = some (g', nx, sp)) (hfree : .main ∉ g.free)
    (hrec : f.threadRec ≠ some .main) (hG : g.main.magic = true ∧ g.main.tid = 0 ∧ g.main.isMain = true) :
    g'.main.magic = true ∧ g'.main.tid = 0 ∧ g'.main.isMain = true := by
  cases f <;> fstep_cases h <;> first
    | exact hG
    | skip
  all_goals simp only [G.main, G.emit, G.upd, listInit, if_true] at hG ⊢
  all_goals try (split <;> first
    | exact hG
    | (rename_i e; exact absurd (by rw [← e]; rfl) hrec)
    | (rename_i e; exact absurd e.symm (alloc_ne_main hfree (by assumption)).1))
  all_goals
    simp only [resetList]
    split
    · simp only [if_true, resetMain]
      split
      · exact hG
      · split
        · exact hG
        · exact ⟨rfl, rfl, rfl⟩
    · exact hG

/-- Main's record is always in use, with number 0. -/
theorem mainRec_inv {A : S → Lbl → Prop} {s : S} (hs : ReachA A s) :
    s.g.main.magic = true ∧ s.g.main.tid = 0 ∧ s.g.main.isMain = true := by
  refine glob_inv (GI := fun g => g.main.magic = true ∧ g.main.tid = 0 ∧ g.main.isMain = true)
    ⟨rfl, rfl, rfl⟩ ?_ (fun _ h => h) (fun _ h => h) hs
  intro s t f rest ok v g' nx sp hr _ ht hG h
  obtain ⟨hfree, hrec⟩ := rec_inv hr
  exact mainRec_go h hfree (hrec t f (by rw [ht]; exact List.mem_cons_self)) hG

/-- The record that getTn finds for a created thread, with what is known about it. -/
theorem getTn_rec {s : S} (hs : ReachA Clean s) {t : Tid} {f : Frame} {rest : List Frame}
    (ht : s.th t = f :: rest) (hf : f ≠ .tdtor) (hu : t ≠ mainOf s.g.tr) {n : NodeId}
    (hn : getTn s.g t = some n) : ∃ f' ∈ s.th t, f'.thr = some n ∧
      RecF s.g.tr t f' n (s.g.nodes n) ∧ RetF s.g.tr t n (s.g.nodes n) := by
  have hft : f ∈ s.th t := by rw [ht]; exact List.mem_cons_self
  have hb := (born_of_live hs hft hu).2
  have hne : s.th t ≠ [] := List.ne_nil_of_mem hft
  have hm := getTn_mine hs hb hne hn
  have hnm : n ≠ .main := by
    rcases hm with ⟨_, e⟩ | ⟨e, _⟩
    · exact absurd e hu
    · exact e
  obtain ⟨f', h1, h2, _, _⟩ := mine_claims hs hm hnm hne
    (by rw [ht]; intro e; injection e with e; exact hf e)
  exact ⟨f', h1, h2, (recI_inv hs h1).2 n hu h2, retI_inv hs h1 n hu h2⟩

theorem getTn_main {s : S} (hs : ReachA Clean s) {t : Tid} {f : Frame} {rest : List Frame}
    (ht : s.th t = f :: rest) (hr : f.resetting = false) (hu : t = mainOf s.g.tr) :
    getTn s.g t = some .main := by
  have hb := not_born hs ht hr
  unfold getTn
  split
  · rename_i h
    obtain ⟨_, h2, _⟩ := (tsd_inv hs).1.2 h hb
    rw [hu, h2]
    simp only
    exact if_pos (mainRec_inv hs).1
  · rfl

/-- A registered thread that makes a call finds its record. -/
theorem getTn_linked {s : S} (hs : ReachA Clean s) {t : Tid} {f : Frame} {rest : List Frame}
    (ht : s.th t = f :: rest) (hf : f ≠ .tdtor) (hu : t ≠ mainOf s.g.tr) {k : Int}
    (hk : (t, .linked k) ∈ s.g.tr) : ∃ n, getTn s.g t = some n := by
  have hft : f ∈ s.th t := by rw [ht]; exact List.mem_cons_self
  rcases linkS_inv hs t hu k hk with e | ⟨e, _⟩ | ⟨f', hf', h1, h2⟩
  · rw [ht] at e; cases e
  · rw [ht] at e; injection e with e; exact absurd e hf
  · obtain ⟨n, hn⟩ := Option.isSome_iff_exists.1 h1
    have hnb0 : f' ≠ .bt0 n := by intro e3; subst e3; cases h2
    have hts := ((tsd_inv hs).2 t f' hf').2 n hn hnb0 hu
    obtain ⟨hm, _⟩ := self_inv hs hf' (Or.inr ⟨hu, hn⟩)
    refine ⟨n, ?_⟩
    unfold getTn
    rw [if_pos (born_of_live hs hft hu).1, hts]
    simp only
    rw [if_pos hm]

/-- What callbacks and queries report. -/
def cleanOrder (old : Hist) (t : Tid) : Ev → Prop
  | .initThread k d => (t, .linked k) ∈ old ∧ ∃ w c st ar, madeBy old t w c st ar (some d)
  | .initThreadRet k _ => (t, .linked k) ∈ old
  | .start st ar => ∃ w c o, madeBy old t w c st ar o
  | .finiThread k d src => t ≠ mainOf old →
      (t, .initThreadRet k d) ∈ old ∨ (src = .winner ∧ ∀ k v, (t, .initThreadRet k v) ∉ old)
  | .gotNum v => (t = mainOf old → v = 0) ∧ (t ≠ mainOf old → v = -1 ∨ (t, .linked v) ∈ old) ∧
      (∀ k, t ≠ mainOf old → (t, .linked k) ∈ old → (t, .linked v) ∈ old)
  | .gotData d => (t = mainOf old → d = lastData old) ∧
      (t ≠ mainOf old → (∀ k v, (t, .initThreadRet k v) ∈ old → d = v) ∧
        (d = 0 ∨ (∃ k, (t, .initThreadRet k d) ∈ old) ∨
          ∃ w c st ar, madeBy old t w c st ar (some d)))
  | _ => True

theorem linked_of_ret {A : S → Lbl → Prop} {s : S} (hs : ReachA A s) {t : Tid} {k : Int} {v : Data}
    (h : (t, .initThreadRet k v) ∈ s.g.tr) : ∃ k', (t, .linked k') ∈ s.g.tr := by
  have hA := (life_order hs).1.1
  have key : ∀ {tr : Hist} {e : Tid × Ev}, Always lifeOrder tr → e ∈ tr →
      ∃ old, lifeOrder old e.1 e.2 ∧ ∀ x, x ∈ old → x ∈ tr := by
    intro tr
    induction tr with
    | nil => intro e _ h; cases h
    | cons x tr ih =>
      intro e hA h
      obtain ⟨t, x⟩ := x
      rcases List.mem_cons.1 h with h | h
      · subst h; exact ⟨tr, hA.1, fun x => List.mem_cons_of_mem _⟩
      · obtain ⟨old, h1, h2⟩ := ih hA.2 h
        exact ⟨old, h1, fun x hx => List.mem_cons_of_mem _ (h2 x hx)⟩
  obtain ⟨old, ⟨k1, d1, h1⟩, h2⟩ := key hA h
  obtain ⟨old', ⟨k2, h3⟩, h4⟩ := key hA (h2 _ h1)
  exact ⟨k2, h4 _ h3⟩

theorem cleanOrder_inv {s : S} (hs : ReachA Clean s) : Always cleanOrder s.g.tr := by
  refine glob_inv (GI := fun g => Always cleanOrder g.tr) trivial ?_ (fun _ h => h)
    (fun _ h => ⟨trivial, h⟩) hs
  intro s t f rest ok v g' nx sp hr hA ht hG h
  have hft : f ∈ s.th t := by rw [ht]; exact List.mem_cons_self
  have hbt : ∀ n, f.thr = some n → f.isBtApp = false → t ≠ mainOf s.g.tr ∧
      RecF s.g.tr t f n (s.g.nodes n) := by
    intro n h1 h2
    have hu := thr_ne_main hr hft h1 h2
    exact ⟨hu, (recI_inv hr hft).2 n hu h1⟩
  have hlf := (life_order hr).2 t f hft
  have hret : ∀ k v, (t, .initThreadRet k v) ∈ s.g.tr → ∃ k', (t, .linked k') ∈ s.g.tr :=
    fun k v h => linked_of_ret hr h
  cases f <;> fstep_cases h <;> first
    | exact hG
    | exact ⟨trivial, hG⟩
    | exact ⟨trivial, trivial, hG⟩
    | (simp only [G.emit, G.upd, resetList_tr]; exact ⟨trivial, hG⟩)
    | skip
  · obtain ⟨w, c, h1⟩ := hlf
    exact ⟨⟨w, c, none, h1⟩, hG⟩
  · rename_i n src
    refine ⟨fun hu => ?_, hG⟩
    obtain ⟨hne, f', h1, h2, h3⟩ := owner_frame hr hft hu (fin_rec n src)
    have hR := (recI_inv hr h1).2 n hu h2
    have hT := retI_inv hr h1 n hu h2
    by_cases hk : ∃ k v, (t, .initThreadRet k v) ∈ s.g.tr
    · obtain ⟨k, v, hk⟩ := hk
      obtain ⟨e1, e2⟩ := hT.1 k v hk
      left; rw [e1, e2]; exact hk
    · by_cases hw : src = .winner
      · exact Or.inr ⟨hw, fun k v hm => hk ⟨k, v, hm⟩⟩
      · exact absurd ⟨_, _, hR.inited (Or.inr (finAppl_inv hr hft hu hw))⟩ hk
  · obtain ⟨hu, hR⟩ := hbt _ rfl rfl
    obtain ⟨w, c, d, h1, h2⟩ := hR.spawned
    have h3 := h2 rfl
    rw [← h3] at h1
    exact ⟨⟨hR.linked rfl, w, c, _, _, _, h1⟩, hG⟩
  · obtain ⟨hu, hR⟩ := hbt _ rfl rfl
    exact ⟨hR.linked rfl, hG⟩
  · obtain ⟨hu, hR⟩ := hbt _ rfl rfl
    obtain ⟨w, c, d, h1, h2⟩ := hR.spawned
    exact ⟨⟨w, c, some d, _, h1⟩, hG⟩
  · rename_i hg
    refine ⟨⟨fun hu => ?_, fun _ => Or.inl rfl, fun k hu hk => ?_⟩, hG⟩
    · have := getTn_main hr ht rfl hu; rw [hg] at this; cases this
    · obtain ⟨n, h1⟩ := getTn_linked hr ht (by simp) hu hk
      rw [hg] at h1; cases h1
  · rename_i n hg
    refine ⟨⟨fun hu => ?_, fun hu => ?_, fun k hu hk => ?_⟩, hG⟩
    · have := getTn_main hr ht rfl hu
      rw [hg] at this; injection this with this; subst this; exact (mainRec_inv hr).2.1
    · obtain ⟨f', h1, h2, hR, hT⟩ := getTn_rec hr ht (by simp) hu hg
      cases hul : f'.unlinked with
      | none => exact Or.inr (hR.linked hul)
      | some m => exact Or.inl (hR.tid0 (by rw [hul]; rfl))
    · obtain ⟨f', h1, h2, hR, hT⟩ := getTn_rec hr ht (by simp) hu hg
      cases hul : f'.unlinked with
      | none => exact hR.linked hul
      | some m =>
        exfalso
        have h3 := occursBy_pos (p := fun e => e.isLinked || e.isRefused) hk rfl
        have h4 := toks_mem (tok := tokLink) h1
        have h5 := life_linked hr t
        have h6 : tokLink f' = 1 := by cases f' <;> first | rfl | cases hul
        omega
  · rename_i hg
    refine ⟨⟨fun hu => ?_, fun hu => ⟨fun k v hk => ?_, Or.inl rfl⟩⟩, hG⟩
    · have := getTn_main hr ht rfl hu; rw [hg] at this; cases this
    · obtain ⟨k', hk'⟩ := hret k v hk
      obtain ⟨n, h1⟩ := getTn_linked hr ht (by simp) hu hk'
      rw [hg] at h1; cases h1
  · rename_i n hg
    refine ⟨⟨fun hu => ?_, fun hu => ?_⟩, hG⟩
    · have := getTn_main hr ht rfl hu
      rw [hg] at this; injection this with this; subst this; exact (lastData_inv hr).1
    · obtain ⟨f', h1, h2, hR, hT⟩ := getTn_rec hr ht (by simp) hu hg
      refine ⟨fun k v hk => (hT.1 k v hk).2, ?_⟩
      rcases hT.2 with ⟨k, v, hk⟩ | ⟨w, c, hk⟩
      · refine Or.inr (Or.inl ⟨k, ?_⟩)
        have := (hT.1 k v hk).2
        rw [this]; exact hk
      · exact Or.inr (Or.inr ⟨w, c, _, _, _, hk⟩)

end Libmonitor.Proc
