import Verif.Proc.OwnSelf
/-!
# The records on the thread list and those looked up by calls in progress
-/

namespace Libmonitor.Proc

theorem list_new {g g' : G} {t : Tid} {ok : Bool} {v : Nat} {f : Frame} {nx : Next}
    {sp : Option Frame} (h : fstep g t ok v f = some (g', nx, sp)) {n : NodeId} (hn : n ≠ .main)
    (hl : n ∈ g'.list) :
    (n ∈ g.list ∧ (f = .ul1 n → g.inExit = true ∨ 1 < g.list.count n)) ∨ f = .bt2 n := by
  cases f <;> fstep_cases h <;> first
    | (refine Or.inl ⟨hl, ?_⟩; simp; done)
    | (cases hl; done)
    | (rcases List.mem_cons.1 hl with e | hl
       first
       | exact absurd e hn
       | exact Or.inr (by rw [e])
       exact Or.inl ⟨hl, by simp⟩)
    | skip
  · left
    refine ⟨?_, by simp⟩
    simp only [G.emit, G.upd, resetList] at hl
    split at hl
    · cases hl
    · exact hl
  · exact Or.inl ⟨hl, fun _ => Or.inl (by assumption)⟩
  · left
    refine ⟨List.mem_of_mem_erase hl, fun e => Or.inr ?_⟩
    injection e with e; rw [e] at hl
    have := List.count_erase_self (a := n) (l := g.list)
    have h2 := List.count_pos_iff.2 hl
    simp only [G.upd] at h2
    omega
  · refine Or.inl ⟨hl, fun e => ?_⟩
    injection e with e; subst e
    exact absurd hl (by assumption)
  · left
    refine ⟨?_, by simp⟩
    simp only [G.emit, resetList] at hl
    split at hl
    · cases hl
    · exact hl

theorem reset_list {g g' : G} {t : Tid} {ok : Bool} {v : Nat} {f : Frame} {nx : Next}
    {sp : Option Frame} (hr : f.resetting = true) (hb : born g.tr = true)
    (hG : g.hasUsed = false → ∀ n ∈ g.list, n = .main)
    (h : fstep g t ok v f = some (g', nx, sp)) (hb' : born g'.tr = false) :
    ∀ n ∈ g'.list, n = .main := by
  cases f <;> first | (simp [Frame.resetting] at hr; done) | skip
  · fstep_cases h <;> (rw [hb] at hb'; cases hb')
  all_goals
    fstep_cases h
    simp only [G.emit, G.upd, resetList]
    split
    · simp
    · rename_i hu; exact hG (by simpa using hu)

/-- The records on the list are in use, and each belongs to a created thread. -/
theorem list_self {s : S} (hs : ReachA Clean s) (hb : born s.g.tr = false) {n : NodeId}
    (hl : n ∈ s.g.list) (hn : n ≠ .main) : (s.g.nodes n).magic = true ∧
      ∃ u, u ≠ mainOf s.g.tr ∧ (s.g.nodes n).self = some u ∧ s.g.tsd u = some n := by
  refine glob_inv (GI := fun g => born g.tr = false → ∀ n, n ∈ g.list → n ≠ .main →
    (g.nodes n).magic = true ∧ ∃ u, u ≠ mainOf g.tr ∧ (g.nodes n).self = some u ∧ g.tsd u = some n)
    ?_ ?_ (fun _ h => h) ?_ hs hb n hl hn
  · intro _ n h; cases h
  · intro s t f rest ok v g' nx sp hr hA ht hG h hb' n hl hn
    have hft : f ∈ s.th t := by rw [ht]; exact List.mem_cons_self
    cases hb : born s.g.tr with
    | true =>
      obtain ⟨_, h2, _⟩ := birth_step hr ht hb
      exact absurd (reset_list h2 hb (fun hu => ((base_inv hr).1.2 hu).1) h hb' n hl) hn
    | false =>
      have hnr := not_resetting hr hft hb
      have hm := mainOf_fstep h
      rcases list_new h hn hl with ⟨hl0, hul⟩ | e
      · obtain ⟨hc, hav, hex⟩ := list_excl hr hn hb hl0
        obtain ⟨o1, u, o2, o3, o4⟩ := hG hb n hl0 hn
        have hk : (g'.nodes n).self = (s.g.nodes n).self ∧
            (g'.nodes n).magic = (s.g.nodes n).magic := by
          by_cases e : f = .ul1 n
          · rcases hul e with hx | hx
            · subst e
              fstep_cases h <;> first
                | (rename_i h0 _; exact absurd hx h0)
                | (simp [G.upd]; done)
            · omega
          · refine self_keep h hn ?_ e ?_
            · intro e; subst e
              exact (hex t _ hft).2 rfl
            · intro a c my st ar d _ ha e
              have := alloc_pos (arr_inv hr) ha
              rw [e] at this; omega
        rw [hk.1, hk.2, hm]
        refine ⟨o1, u, o2, o3, ?_⟩
        by_cases e : ∃ m, f = .bt0 m
        · obtain ⟨m, e⟩ := e
          subst e
          fstep_cases h
          show (if u = t then some m else s.g.tsd u) = _
          rw [if_neg]
          · exact o4
          · intro e; subst e
            have hb1 := back_inv hr u hb n o4 hn
            have hsh := shape_inv hr u
            rw [ht] at hsh hb1
            rw [hsh.1 rfl] at hb1
            rcases hb1 with hb1 | hb1 | ⟨f, hf, h1, h2⟩
            · cases hb1
            · cases hb1
            · rw [List.mem_singleton] at hf
              subst hf
              injection h1 with h1; subst h1
              exact h2 rfl
        · rw [tsd_keep hnr (fun m hm => e ⟨m, hm⟩) ?_ h]
          · exact o4
          · intro st ar e
            subst e
            fstep_cases h
            · assumption
            · cases hl
      · subst e
        have htm := thr_ne_main hr hft (n := n) rfl rfl
        obtain ⟨o1, o2⟩ := self_inv hr hft (Or.inr ⟨htm, rfl⟩)
        have o3 := ((tsd_inv hr).2 t _ hft).2 n rfl (by simp) htm
        have o2 := o2 rfl (by simp)
        rw [hm]
        fstep_cases h
        · exact ⟨o1, t, htm, o2, o3⟩
        · exact ⟨o1, t, htm, o2, o3⟩
        · simp only [G.emit, G.upd, if_true]
          exact ⟨o1, t, htm, o2, o3⟩
  · intro s t real hr _ hb
    cases hb

/-- The records still to be visited. -/
def Frame.todo : Frame → List NodeId
  | .sdScan _ todo _ _ | .sdScan2 _ _ todo _ _ => todo
  | .sdKill _ n todo _ _ => n :: todo
  | _ => []

def ScanF (g : G) (f : Frame) : Prop :=
  (f = .sd3 → g.inExit = true) ∧
  (f.scanning = true → g.inExit = true ∧ born g.tr = false ∧
    ∀ n ∈ f.todo, n ≠ .main → n ∈ g.list)

theorem inExit_keep {g g' : G} {t : Tid} {ok : Bool} {v : Nat} {f : Frame} {nx : Next}
    {sp : Option Frame} (h : fstep g t ok v f = some (g', nx, sp)) (hi : g.inExit = true) :
    g'.inExit = true := by
  cases f <;> fstep_cases h <;> first
    | exact hi
    | rfl
    | (simp only [listInit, G.emit, G.upd, resetList]; try split
       all_goals exact hi)

/-- The exit cleanup walks over records that are on the list. -/
theorem scan_inv {s : S} (hs : ReachA Clean s) {u : Tid} {f : Frame} (hf : f ∈ s.th u) :
    ScanF s.g f := by
  refine (frames_invA (A := Clean) (GI := fun _ => True) (FI := fun g _ f => ScanF g f)
    trivial ?_ ?_ (fun _ h => h) (fun _ _ _ h => h) ?_ ?_ ?_ ?_ hs).2 u f hf
  · exact ⟨by simp, by simp [Frame.scanning]⟩
  · intro s t f rest ok v g' nx sp hr hA ht _ hF h
    have hft : f ∈ s.th t := by rw [ht]; exact List.mem_cons_self
    have hkeep : ∀ u h', h' ∈ s.th u → ScanF g' h' := by
      intro u h' hm'
      obtain ⟨o1, o2⟩ := hF u h' hm'
      refine ⟨fun e => inExit_keep h (o1 e), fun e => ?_⟩
      obtain ⟨p1, p2, p3⟩ := o2 e
      refine ⟨inExit_keep h p1, born_keep h p2, fun n hn hne => ?_⟩
      have hl := p3 n hn hne
      have hus : s.g.hasUsed = true := by
        cases hus : s.g.hasUsed with
        | true => rfl
        | false => exact absurd (((base_inv hr).1.2 hus).1 n hl) hne
      by_cases e : f = .ul1 n
      · subst e
        fstep_cases h <;> first
          | exact hl
          | (rename_i h0 _; exact absurd p1 h0)
      · exact list_keep (not_resetting hr hft p2) hus h e hl
    refine ⟨trivial, fun u h' hm' _ => hkeep u h' hm', fun _ => hkeep t f hft, ?_, ?_, ?_⟩
    · intro l e h' hm'
      subst e
      obtain ⟨o1, o2⟩ := hF t f hft
      refine ⟨fun e => ?_, fun e => ?_⟩
      · subst e
        cases f <;> fstep_cases h <;>
          simp only [List.mem_cons, List.not_mem_nil, or_false, reduceCtorEq] at hm' <;>
          (try (rcases hm' with hm' | hm' <;> cases hm'; done)) <;>
          (try (cases hm'; done)) <;> rfl
      · cases f <;> fstep_cases h <;>
          simp only [List.mem_cons, List.not_mem_nil, or_false] at hm' <;>
          (try (rcases hm' with hm' | hm')) <;> (try subst hm') <;>
          (try (cases e; done))
        · refine ⟨o1 rfl, ?_, fun n hn _ => hn⟩
          cases hb : born s.g.tr with
          | false => rfl
          | true => obtain ⟨_, h2, _⟩ := birth_step hr ht hb; cases h2
        · refine ⟨o1 rfl, ?_, fun n hn _ => hn⟩
          cases hb : born s.g.tr with
          | false => exact hb
          | true => obtain ⟨_, h2, _⟩ := birth_step hr ht hb; cases h2
        all_goals
          obtain ⟨p1, p2, p3⟩ := o2 rfl
          refine ⟨p1, ?_, fun n hn hne => ?_⟩
          · first | exact p2 | rfl
          · first
            | exact p3 n hn hne
            | exact p3 n (List.mem_cons_of_mem _ hn) hne
            | exact hn
    · intro h' e
      subst e
      cases f <;> fstep_cases h <;> exact ⟨by simp, by simp [Frame.scanning]⟩
    · intro e h' hm'
      rcases unwound_cases rest with e | ⟨f', m, hf', ha, e⟩ <;> rw [e] at hm' <;>
        simp only [List.mem_cons, List.not_mem_nil, or_false] at hm' <;>
        (try (rcases hm' with hm' | hm')) <;> (try subst hm') <;>
        exact ⟨by simp, by simp [Frame.scanning]⟩
  · intro s t i h hr hA _ _ hF _ _ hp _
    cases h <;> simp [Frame.pushable] at hp <;> exact ⟨by simp, by simp [Frame.scanning]⟩
  · intro s t hr hA _ hne hF h hm'
    rcases unwound_cases (s.th t) with e | ⟨f', m, hf', ha, e⟩ <;> rw [e] at hm' <;>
      simp only [List.mem_cons, List.not_mem_nil, or_false] at hm' <;>
      (try (rcases hm' with hm' | hm')) <;> (try subst hm') <;>
      exact ⟨by simp, by simp [Frame.scanning]⟩
  · intro s t c d rest hr hA ht _ hF
    refine ⟨trivial, fun h hm => ?_⟩
    rcases List.mem_cons.1 hm with e | hm
    · subst e; exact ⟨by simp, by simp [Frame.scanning]⟩
    rcases List.mem_cons.1 hm with e | hm
    · subst e; exact ⟨by simp, by simp [Frame.scanning]⟩
    have hm : h ∈ s.th t := by rw [ht]; exact List.mem_cons_of_mem _ hm
    have := hA h hm
    refine ⟨(hF t h hm).1, fun e => ?_⟩
    simp [Frame.forkOk, e] at this
  · intro s t rest hr hA ht _ hF
    refine ⟨trivial, fun h hm => ?_⟩
    rcases List.mem_cons.1 hm with e | hm
    · subst e; exact ⟨by simp, by simp [Frame.scanning]⟩
    have hm : h ∈ s.th t := by rw [ht]; exact List.mem_cons_of_mem _ hm
    have := hA h hm
    refine ⟨(hF t h hm).1, fun e => ?_⟩
    simp [Frame.forkOk, e] at this

/-- The record belongs to the thread: main's to the initial thread, another one to a created
thread. -/
def Mine (g : G) (t : Tid) (n : NodeId) : Prop :=
  (n = .main ∧ t = mainOf g.tr) ∨ (n ≠ .main ∧ t ≠ mainOf g.tr ∧ g.tsd t = some n)

theorem tsd_mine {s : S} (hs : ReachA Clean s) {t : Tid} (hb : born s.g.tr = false)
    (hne : s.th t ≠ []) {n : NodeId} (hn : s.g.tsd t = some n) : Mine s.g t n := by
  obtain ⟨bG, bF⟩ := base_inv hs
  obtain ⟨tG, tF⟩ := tsd_inv hs
  cases hu : s.g.hasUsed with
  | true =>
    obtain ⟨m1, m2, m3⟩ := tG.2 hu hb
    by_cases e : n = .main
    · subst e; exact Or.inl ⟨rfl, m3 t hn⟩
    · refine Or.inr ⟨e, ?_, hn⟩
      intro e2; rw [e2, m2] at hn
      injection hn with hn; exact e hn.symm
  | false =>
    refine Or.inl ⟨(bG.2 hu).2.2 t n hn, ?_⟩
    obtain ⟨f, rest, ht⟩ := List.exists_cons_of_ne_nil hne
    by_cases e : t = mainOf s.g.tr
    · exact e
    · rw [((bF t f (by rw [ht]; exact List.mem_cons_self)).1 e).1] at hu; cases hu

theorem getTn_mine {s : S} (hs : ReachA Clean s) {t : Tid} (hb : born s.g.tr = false)
    (hne : s.th t ≠ []) {n : NodeId} (hn : getTn s.g t = some n) : Mine s.g t n := by
  unfold getTn at hn
  split at hn
  · split at hn
    · rename_i m hm
      split at hn
      · injection hn with hn; subst hn
        exact tsd_mine hs hb hne hm
      · cases hn
    · cases hn
  · rename_i hu
    injection hn with hn
    refine Or.inl ⟨hn.symm, ?_⟩
    obtain ⟨f, rest, ht⟩ := List.exists_cons_of_ne_nil hne
    by_cases e : t = mainOf s.g.tr
    · exact e
    · exact absurd (((base_inv hs).2 t f (by rw [ht]; exact List.mem_cons_self)).1 e).1 hu

theorem held_new {g g' : G} {t : Tid} {ok : Bool} {v : Nat} {f : Frame} {l : List Frame}
    {sp : Option Frame} (h : fstep g t ok v f = some (g', .go l, sp)) {h' : Frame} (hm : h' ∈ l)
    {n : NodeId} (hn : h'.holds = some n) : f.holds = some n ∨ getTn g t = some n ∨
      g.tsd t = some n ∨ (f.scanning = true ∧ n ∈ f.todo ∧ (g.nodes n).self = some t) := by
  cases f <;> fstep_cases h <;>
    simp only [List.mem_cons, List.not_mem_nil, or_false] at hm <;>
    (try (rcases hm with hm | hm)) <;> (try subst hm) <;>
    first
    | (cases hn; done)
    | exact Or.inl hn
    | exact Or.inr (Or.inl hn)
    | skip
  · rename_i hg
    injection hn with hn; subst hn
    exact Or.inr (Or.inr (Or.inr ⟨rfl, List.mem_cons_self, hg⟩))
  · rename_i hg _
    injection hn with hn; subst hn
    exact Or.inr (Or.inr (Or.inl hg))
  · rename_i hg _
    injection hn with hn; subst hn
    exact Or.inr (Or.inl hg)
  · rename_i hg
    injection hn with hn; subst hn
    exact Or.inr (Or.inl hg)

theorem mine_keep {s : S} (hs : ReachA Clean s) {t : Tid} {f : Frame} {rest : List Frame}
    {ok : Bool} {v : Nat} {g' : G} {nx : Next} {sp : Option Frame} (ht : s.th t = f :: rest)
    (h : fstep s.g t ok v f = some (g', nx, sp)) {u : Tid} {n : NodeId} (hne : s.th u ≠ [])
    (hbt : u = t → ∀ m, f ≠ .bt0 m) (hm : Mine s.g u n) : Mine g' u n := by
  have hft : f ∈ s.th t := by rw [ht]; exact List.mem_cons_self
  have hmo := mainOf_fstep h
  rcases hm with ⟨h1, h2⟩ | ⟨h1, h2, h3⟩
  · exact Or.inl ⟨h1, by rw [hmo]; exact h2⟩
  · refine Or.inr ⟨h1, by rw [hmo]; exact h2, ?_⟩
    obtain ⟨f0, r0, hu⟩ := List.exists_cons_of_ne_nil hne
    obtain ⟨hus, hb⟩ := born_of_live hs (by rw [hu]; exact List.mem_cons_self) h2
    have hnr := not_resetting hs hft hb
    by_cases e : ∃ m, f = .bt0 m
    · obtain ⟨m, e⟩ := e
      have : u ≠ t := fun e2 => hbt e2 m e
      subst e
      fstep_cases h
      show (if u = t then some m else s.g.tsd u) = _
      rw [if_neg this]; exact h3
    · rw [tsd_keep hnr (fun m hm => e ⟨m, hm⟩) (fun _ _ _ => hus) h]; exact h3

/-- A call that has looked up a record: it is the calling thread's. -/
theorem held_inv {s : S} (hs : ReachA Clean s) {u : Tid} {f : Frame} (hf : f ∈ s.th u) {n : NodeId}
    (hn : f.holds = some n) : Mine s.g u n := by
  refine (frames_invA (A := Clean) (GI := fun _ => True)
    (FI := fun g u f => ∀ n, f.holds = some n → Mine g u n)
    trivial ?_ ?_ (fun _ h => h) (fun _ _ _ h => h) ?_ ?_ ?_ ?_ hs).2 u f hf n hn
  · intro n h; cases h
  · intro s t f rest ok v g' nx sp hr hA ht _ hF h
    have hft : f ∈ s.th t := by rw [ht]; exact List.mem_cons_self
    have hsh := shape_inv hr t
    rw [ht] at hsh
    have htne : s.th t ≠ [] := by rw [ht]; simp
    have hold : ∀ u h', h' ∈ s.th u → (u = t → h' ∈ rest) → ∀ n, h'.holds = some n → Mine g' u n := by
      intro u h' hm' hor n hn
      refine mine_keep hr ht h (List.ne_nil_of_mem hm') ?_ (hF u h' hm' n hn)
      intro e m e2
      subst e2
      have := hor e
      rw [hsh.1 rfl] at this; cases this
    refine ⟨trivial, hold, ?_, ?_, ?_, ?_⟩
    · intro e n hn
      refine mine_keep hr ht h htne ?_ (hF t f hft n hn)
      intro _ m e; subst e; cases hn
    · intro l e h' hm' n hn
      subst e
      refine mine_keep hr ht h htne ?_ ?_
      · intro _ m e; subst e
        fstep_cases h
        simp only [List.mem_cons, List.not_mem_nil, or_false] at hm'
        subst hm'; cases hn
      · have hb : f.resetting = false → born s.g.tr = false := by
          intro hnr
          cases hb : born s.g.tr with
          | false => rfl
          | true => rw [(birth_step hr ht hb).2.1] at hnr; cases hnr
        have hnr : f.resetting = false := by
          cases hc : f.resetting with
          | false => rfl
          | true =>
            cases f <;> first | (cases hc; done) | skip
            all_goals
              fstep_cases h <;> simp only [List.mem_cons, List.not_mem_nil, or_false] at hm' <;>
              (try subst hm') <;> first | (cases hn; done) | (cases hc; done)
        have hb := hb hnr
        rcases held_new h hm' hn with h1 | h1 | h1 | ⟨h1, h2, h3⟩
        · exact hF t f hft n h1
        · exact getTn_mine hr hb htne h1
        · exact tsd_mine hr hb htne h1
        · by_cases e : n = .main
          · subst e
            refine Or.inl ⟨rfl, ?_⟩
            cases hu : s.g.hasUsed with
            | true =>
              have := ((tsd_inv hr).1.2 hu hb).1
              rw [G.main, h3] at this
              injection this
            | false =>
              by_cases e : t = mainOf s.g.tr
              · exact e
              · rw [((base_inv hr).2 t f hft).1 e |>.1] at hu; cases hu
          · have hl := ((scan_inv hr hft).2 h1).2.2 n h2 e
            obtain ⟨_, u, o1, o2, o3⟩ := list_self hr hb hl e
            rw [h3] at o2
            injection o2 with o2; subst o2
            exact Or.inr ⟨e, o1, o3⟩
    · intro h' e
      subst e
      cases f <;> fstep_cases h <;> (intro n hn; cases hn)
    · intro e h' hm'
      rcases unwound_cases rest with e | ⟨f', m, hf', ha, e⟩ <;> rw [e] at hm' <;>
        simp only [List.mem_cons, List.not_mem_nil, or_false] at hm' <;>
        (try (rcases hm' with hm' | hm')) <;> (try subst hm') <;> (intro n hn; cases hn)
  · intro s t i h hr hA _ _ hF _ _ hp _
    cases h <;> simp [Frame.pushable] at hp <;> (intro n hn; cases hn)
  · intro s t hr hA _ hne hF h hm'
    rcases unwound_cases (s.th t) with e | ⟨f', m, hf', ha, e⟩ <;> rw [e] at hm' <;>
      simp only [List.mem_cons, List.not_mem_nil, or_false] at hm' <;>
      (try (rcases hm' with hm' | hm')) <;> (try subst hm') <;> (intro n hn; cases hn)
  · intro s t c d rest hr hA ht _ hF
    refine ⟨trivial, fun h hm n hn => ?_⟩
    rcases List.mem_cons.1 hm with e | hm
    · subst e; cases hn
    rcases List.mem_cons.1 hm with e | hm
    · subst e; cases hn
    have := hA h (by rw [ht]; exact List.mem_cons_of_mem _ hm)
    simp [Frame.forkOk, hn] at this
    exact Or.inl ⟨this.2, rfl⟩
  · intro s t rest hr hA ht _ hF
    refine ⟨trivial, fun h hm n hn => ?_⟩
    rcases List.mem_cons.1 hm with e | hm
    · subst e; cases hn
    have := hA h (by rw [ht]; exact List.mem_cons_of_mem _ hm)
    simp [Frame.forkOk, hn] at this
    exact Or.inl ⟨this.2, rfl⟩

end Libmonitor.Proc
