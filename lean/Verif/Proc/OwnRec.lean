import Verif.Proc.OwnKeep
/-!
# What the record of a thread says
-/

namespace Libmonitor.Proc

/-- Without the fields that calls of the library and callbacks change. -/
def core (m : Node) : Node :=
  { m with info := none, ignore := false, finiS := false, finiD := false, exitWin := false,
           block := false }

/-- Frames whose step changes the core of the record `n`. -/
def Frame.shapes (f : Frame) (n : NodeId) : Prop :=
  f = .bt0 n ∨ f = .bt2 n ∨ f = .btInit n ∨ f = .bt4 n ∨ f = .ul1 n ∨
    ∃ c my st ar d, f = .pc6 c my n st ar d

theorem core_keep {g g' : G} {t : Tid} {ok : Bool} {v : Nat} {f : Frame} {nx : Next}
    {sp : Option Frame} (h : fstep g t ok v f = some (g', nx, sp)) {n : NodeId} (hn : n ≠ .main)
    (h1 : ¬ f.shapes n) (h2 : ∀ a c my st ar d, f = .mk1 c my st ar d → alloc g ok = some a → a.n ≠ n) :
    core (g'.nodes n) = core (g.nodes n) ∧
      ((g'.nodes n).finiS = (g.nodes n).finiS ∨ ∃ src, f = .fin0 n src) ∧
      ((g'.nodes n).finiD = (g.nodes n).finiD ∨ ∃ src tid, f = .finCb n src tid) := by
  by_cases hw : writes g t ok f = some n
  · cases f <;> fstep_cases h <;> first | exact ⟨rfl, Or.inl rfl, Or.inl rfl⟩ | skip
    all_goals
      simp only [writes] at hw
      first
      | (injection hw with hw
         first
         | exact absurd hw.symm hn
         | (subst hw
            first
            | (exfalso; apply h1; simp [Frame.shapes]; done)
            | (simp [G.emit, G.upd, core]; done)))
      | (rename_i hg
         rw [hg] at hw
         injection hw with hw
         first
         | exact absurd hw (h2 _ _ _ _ _ _ rfl hg)
         | (subst hw; simp [G.emit, G.upd, core]; done))
      | skip
    rename_i m hg
    have : m = n := by
      have : some m = some n := hg.symm.trans hw
      injection this
    subst this
    simp [G.emit, G.upd, core]
  · rw [node_keep h hw]; exact ⟨rfl, Or.inl rfl, Or.inl rfl⟩

/-- Two frames of one stack do not own the same record. -/
theorem claims_rest {s : S} (hs : ReachA Clean s) {t : Tid} {f : Frame} {rest : List Frame}
    (ht : s.th t = f :: rest) {f' : Frame} (hf' : f' ∈ rest) {n : NodeId} (hn : n ≠ .main)
    (hc : claims s.g t f' n) : ¬ claims s.g t f n := by
  intro hc'
  have hm : f' ∈ s.th t := by rw [ht]; exact List.mem_cons_of_mem _ hf'
  obtain ⟨hu, hb⟩ := claims_live hs hm hc
  have := (rec_excl hs hn hu hb).1 t
  simp only [stk, ht, toks_cons] at this
  have k1 := claims_tok hc
  have k2 := claims_tok hc'
  have m1 := toks_mem (tok := tokRec n (decide (t = mainOf s.g.tr))) hf'
  omega

theorem shapes_claims {s : S} (hs : ReachA Clean s) {t : Tid} {f : Frame} (hf : f ∈ s.th t)
    {n : NodeId} (h : f.shapes n) : claims s.g t f n := by
  rcases h with h | h | h | h | h | ⟨_, _, _, _, _, h⟩ <;> subst h <;> first
    | exact Or.inr ⟨thr_ne_main hs hf rfl rfl, rfl⟩
    | exact Or.inl rfl

/-- The record of another thread, or of a call further down. -/
theorem core_owned {s : S} (hs : ReachA Clean s) {t : Tid} {f : Frame} {rest : List Frame}
    {ok : Bool} {v : Nat} {g' : G} {nx : Next} {sp : Option Frame} (ht : s.th t = f :: rest)
    (h : fstep s.g t ok v f = some (g', nx, sp)) {u : Tid} {f' : Frame} {n : NodeId}
    (hf' : f' ∈ s.th u) (hr : u = t → f' ∈ rest) (hc : claims s.g u f' n) :
    core (g'.nodes n) = core (s.g.nodes n) ∧
      ((g'.nodes n).finiS = (s.g.nodes n).finiS ∨ u = t ∧ ∃ src, f = .fin0 n src) ∧
      ((g'.nodes n).finiD = (s.g.nodes n).finiD ∨ u = t ∧ ∃ src tid, f = .finCb n src tid) := by
  by_cases e : u = t
  · have hn : n ≠ .main := claims_ne_main hs hf' (hc.imp_right And.right)
    have hft : f ∈ s.th t := by rw [ht]; exact List.mem_cons_self
    subst e
    have := core_keep h hn (fun hsh => claims_rest hs ht (hr rfl) hn hc (shapes_claims hs hft hsh)) ?_
    · refine ⟨this.1, this.2.1.imp_right (fun h => ⟨rfl, h⟩), this.2.2.imp_right (fun h => ⟨rfl, h⟩)⟩
    · intro a c my st ar d _ ha e
      have := alloc_pos (arr_inv hs) ha
      rw [e, claims_avail hs hn hf' hc] at this
      omega
  · rw [nodes_keep hs ht h e hf' hc]; exact ⟨rfl, Or.inl rfl, Or.inl rfl⟩

/-- Before the client's init-thread returns. -/
def Frame.uninit : Frame → Bool
  | .bt0 _ | .bt1 _ | .bt2 _ | .bt3 _ | .btInit _ => true
  | _ => false

def Frame.isBt4 : Frame → Bool
  | .bt4 _ => true
  | _ => false

/-- In, or about to enter, the start routine. -/
def Frame.runs : Frame → Bool
  | .bt5 _ | .btApp _ => true
  | _ => false

def Frame.unlinking : Frame → Bool
  | .ul0 _ | .ul1 _ => true
  | _ => false

def Frame.finiTid : Frame → Option Int
  | .finCb _ _ tid => some tid
  | _ => none

def Frame.writesFini : Frame → Option NodeId
  | .fin0 n _ | .finCb n _ _ => some n
  | _ => none

/-- The record of a thread that is being created. -/
def NewF (f : Frame) (m : Node) : Prop :=
  m.appl = false ∧ m.finiS = false ∧ m.finiD = false ∧ m.tid = -1 ∧
  match f with
  | .pcStack _ _ _ st ar d | .pc7 _ _ _ st ar d => m.start = st ∧ m.arg = ar ∧ m.data = d
  | _ => True

/-- The record of a created thread. -/
structure RecF (tr : Hist) (u : Tid) (f : Frame) (n : NodeId) (m : Node) : Prop where
  spawned : ∃ w c d, (w, .spawn c u n m.start m.arg d) ∈ tr ∧ (f.uninit = true → m.data = d)
  tid0 : f.unlinked.isSome = true → m.tid = -1
  linked : f.unlinked = none → (u, .linked m.tid) ∈ tr
  appl0 : f.uninit = true ∨ f.isBt4 = true → m.appl = false
  inited : f.isBt4 = true ∨ m.appl = true → (u, .initThreadRet m.tid m.data) ∈ tr
  appl : f.runs = true → m.appl = true
  finiS : m.finiS = true → ∃ k d src, (u, .finiThread k d src) ∈ tr
  finiD : m.finiD = true → ∃ k, (u, .finiThreadRet k) ∈ tr
  done : f.unlinking = true → ∃ k, (u, .finiThreadRet k) ∈ tr

theorem core_eq {m m' : Node} (h : core m' = core m) : m'.tid = m.tid ∧ m'.start = m.start ∧
    m'.arg = m.arg ∧ m'.data = m.data ∧ m'.appl = m.appl := by
  unfold core at h
  injection h with h1 h2 h3 h4 h5 h6 h7 h8 h9 h10
  exact ⟨h2, h4, h5, h6, h10⟩

theorem newF_core {f : Frame} {m m' : Node} (h : core m' = core m) (h1 : m'.finiS = m.finiS)
    (h2 : m'.finiD = m.finiD) (hf : NewF f m) : NewF f m' := by
  obtain ⟨e1, e2, e3, e4, e5⟩ := core_eq h
  unfold NewF at hf ⊢
  rw [e1, e2, e3, e4, e5, h1, h2]
  exact hf

theorem recF_core {tr tr' : Hist} {u : Tid} {f : Frame} {n : NodeId} {m m' : Node}
    (hr : RecF tr u f n m) (h : core m' = core m) (ht : ∀ e, e ∈ tr → e ∈ tr')
    (h1 : m'.finiS = m.finiS ∨ ∃ k d src, (u, .finiThread k d src) ∈ tr')
    (h2 : m'.finiD = m.finiD ∨ ∃ k, (u, .finiThreadRet k) ∈ tr') : RecF tr' u f n m' := by
  obtain ⟨e1, e2, e3, e4, e5⟩ := core_eq h
  obtain ⟨r1, r2, r3, r4, r5, r6, r7, r8, r9⟩ := hr
  refine ⟨?_, ?_, ?_, ?_, ?_, ?_, ?_, ?_, ?_⟩ <;> (try simp only [e1, e2, e3, e4, e5])
  · obtain ⟨w, c, d, k1, k2⟩ := r1; exact ⟨w, c, d, ht _ k1, k2⟩
  · exact r2
  · exact fun h => ht _ (r3 h)
  · exact r4
  · exact fun h => ht _ (r5 h)
  · exact r6
  · intro hf
    rcases h1 with h1 | h1
    · rw [h1] at hf; obtain ⟨k, d, src, h⟩ := r7 hf; exact ⟨k, d, src, ht _ h⟩
    · exact h1
  · intro hf
    rcases h2 with h2 | h2
    · rw [h2] at hf; obtain ⟨k, h⟩ := r8 hf; exact ⟨k, ht _ h⟩
    · exact h2
  · intro hf; obtain ⟨k, h⟩ := r9 hf; exact ⟨k, ht _ h⟩

theorem recF_frame {tr : Hist} {u : Tid} {f h : Frame} {n : NodeId} {m : Node}
    (hr : RecF tr u f n m) (h1 : h.uninit = true → f.uninit = true)
    (h2 : h.unlinked.isSome = true → f.unlinked.isSome = true)
    (h3 : h.unlinked = none → f.unlinked = none) (h4 : h.isBt4 = true → f.isBt4 = true)
    (h5 : h.runs = true → f.runs = true)
    (h6 : h.unlinking = true → f.unlinking = true ∨ ∃ k, (u, .finiThreadRet k) ∈ tr) :
    RecF tr u h n m := by
  obtain ⟨⟨w, c, d, r1, r1'⟩, r2, r3, r4, r5, r6, r7, r8, r9⟩ := hr
  exact ⟨⟨w, c, d, r1, fun h => r1' (h1 h)⟩, fun h => r2 (h2 h), fun h => r3 (h3 h),
    fun h => r4 (h.imp h1 h4), fun h => r5 (h.imp_left h4), fun h => r6 (h5 h), r7, r8,
    fun h => (h6 h).elim r9 id⟩

def RecI (g : G) (u : Tid) (f : Frame) : Prop :=
  (∀ n, f.newRec = some n → NewF f (g.nodes n)) ∧
  (∀ n, u ≠ mainOf g.tr → f.thr = some n → RecF g.tr u f n (g.nodes n))

theorem recI_none {g : G} {u : Tid} {f : Frame} (h1 : f.newRec = none) (h2 : f.thr = none) :
    RecI g u f :=
  ⟨fun n h => absurd h (by rw [h1]; simp), fun n _ h => absurd h (by rw [h2]; simp)⟩

theorem recI_go {s : S} (hs : ReachA Clean s) {t : Tid} {f : Frame} {rest : List Frame}
    {ok : Bool} {v : Nat} {g' : G} {l : List Frame} {sp : Option Frame} (ht : s.th t = f :: rest)
    (h : fstep s.g t ok v f = some (g', .go l, sp)) (hF : RecI s.g t f) {h' : Frame}
    (hm : h' ∈ l) : RecI g' t h' := by
  obtain ⟨i1, i2⟩ := hF
  have hmo := mainOf_fstep h
  cases f <;> fstep_cases h <;>
    simp only [List.mem_cons, List.not_mem_nil, or_false] at hm <;>
    (try (rcases hm with hm | hm)) <;> (try subst hm) <;>
    (try (exact recI_none rfl rfl; done))
  all_goals first
    | (refine ⟨fun n e => absurd e (by simp [Frame.newRec]), fun n hu e => ?_⟩
       simp only [Frame.thr, Option.ite_none_right_eq_some, Option.some.injEq] at e
       first
       | subst e
       | (have e1 := e.1; have e2 := e.2; subst e1; subst e2)
       rw [hmo] at hu
       obtain ⟨⟨w, c, d, r1, r1'⟩, r2, r3, r4, r5, r6, r7, r8, r9⟩ := i2 _ hu rfl
       simp [Frame.uninit, Frame.unlinked, Frame.isBt4, Frame.runs, Frame.unlinking] at r1' r2 r3 r4 r5 r6 r9
       refine ⟨⟨w, c, d, ?_, ?_⟩, ?_, ?_, ?_, ?_, ?_, ?_, ?_, ?_⟩ <;>
         simp [G.emit, G.upd, Frame.uninit, Frame.unlinked, Frame.isBt4, Frame.runs, Frame.unlinking, *] <;>
         (try simp_all); done)
    | skip
  · rename_i n src
    refine ⟨fun n e => absurd e (by simp [Frame.newRec]), fun n' hu e => ?_⟩
    simp only [Frame.thr, Option.ite_none_right_eq_some, Option.some.injEq] at e
    obtain ⟨e1, e2⟩ := e
    subst e2
    rw [hmo] at hu
    have := recF_frame (h := .finCb n src (s.g.nodes n).tid) (i2 n hu (by simp [Frame.thr, e1]))
      (by simp [Frame.uninit]) (by simp [Frame.unlinked]) (by simp [Frame.unlinked])
      (by simp [Frame.isBt4]) (by simp [Frame.runs]) (by simp [Frame.unlinking])
    refine recF_core this (by simp [G.emit, G.upd, core]) (fun e h => List.mem_cons_of_mem _ h)
      (Or.inr ⟨_, _, _, List.mem_cons_self⟩) (Or.inl (by simp [G.emit, G.upd]))
  · rename_i n src k e1
    refine ⟨fun n e => absurd e (by simp [Frame.newRec]), fun n' hu e => ?_⟩
    injection e with e2
    subst e2
    rw [hmo] at hu
    have := i2 n hu (by simp [Frame.thr, e1])
    have := recF_core (tr' := (t, .finiThreadRet k) :: s.g.tr) (m' := { s.g.nodes n with finiD := true })
      this (by simp [core]) (fun e h => List.mem_cons_of_mem _ h) (Or.inl rfl)
      (Or.inr ⟨_, List.mem_cons_self⟩)
    have := recF_frame (h := .ul0 n) this
      (by simp [Frame.uninit]) (by simp [Frame.unlinked]) (by simp [Frame.unlinked])
      (by simp [Frame.isBt4]) (by simp [Frame.runs]) (fun _ => Or.inr ⟨_, List.mem_cons_self⟩)
    simpa [G.emit, G.upd] using this
  · rename_i n _
    refine ⟨fun n e => absurd e (by simp [Frame.newRec]), fun n' hu e => ?_⟩
    injection e with e2
    subst e2
    exact recF_frame (i2 n hu rfl)
      (by simp [Frame.uninit]) (by simp [Frame.unlinked]) (by simp [Frame.unlinked])
      (by simp [Frame.isBt4]) (by simp [Frame.runs]) (by simp [Frame.unlinking])
  · rename_i n
    refine ⟨fun n e => absurd e (by simp [Frame.newRec]), fun n' hu e => ?_⟩
    injection e with e2
    subst e2
    exact recF_frame (i2 n hu rfl)
      (by simp [Frame.uninit]) (by simp [Frame.unlinked]) (by simp [Frame.unlinked])
      (by simp [Frame.isBt4]) (by simp [Frame.runs]) (by simp [Frame.unlinking])
  · refine ⟨fun n e => ?_, fun n _ e => absurd e (by simp [Frame.thr])⟩
    injection e with e; subst e
    simp [NewF, G.upd]
  · refine ⟨fun n' e => ?_, fun n _ e => absurd e (by simp [Frame.thr])⟩
    injection e with e; subst e
    have := i1 _ rfl
    simp only [NewF, and_true] at this
    simp [NewF, G.upd, this]
  · refine ⟨fun n' e => ?_, fun n _ e => absurd e (by simp [Frame.thr])⟩
    injection e with e; subst e
    exact i1 _ rfl

theorem recI_inv {s : S} (hs : ReachA Clean s) {u : Tid} {f : Frame} (hf : f ∈ s.th u) :
    RecI s.g u f := by
  refine (frames_invA (A := Clean) (GI := fun _ => True) (FI := RecI) trivial (recI_none rfl rfl) ?_
    (fun _ h => h) (fun _ _ _ h => h) ?_ ?_ ?_ ?_ hs).2 u f hf
  · intro s t f rest ok v g' nx sp hr hA ht _ hF h
    have hft : f ∈ s.th t := by rw [ht]; exact List.mem_cons_self
    have hmo := mainOf_fstep h
    have hmem : ∀ e, e ∈ s.g.tr → e ∈ g'.tr := mem_of_fstep h
    have hold : ∀ u h', h' ∈ s.th u → (u = t → h' ∈ rest) → RecI g' u h' := by
      intro u h' hm' hor
      obtain ⟨i1, i2⟩ := hF u h' hm'
      refine ⟨fun n hn => ?_, fun n hu hn => ?_⟩
      · obtain ⟨k1, k2, k3⟩ := core_owned hr ht h hm' hor (Or.inl hn)
        have hex : ¬ (u = t ∧ f.writesFini = some n) := by
          rintro ⟨e, hw⟩
          subst e
          have hw' : writes s.g u ok f = some n := by
            cases f <;> first | (cases hw; done) | exact hw
          rcases own_write hr ht hm' (Or.inl hn) hw' with e | ⟨e, _⟩
          · subst e; cases h' <;> first | (cases hn; done) | (cases hw; done)
          · rw [hn] at e; cases e
        refine newF_core k1 (k2.resolve_right ?_) (k3.resolve_right ?_) (i1 n hn)
        · rintro ⟨e, src, e2⟩; exact hex ⟨e, by rw [e2]; rfl⟩
        · rintro ⟨e, src, k, e2⟩; exact hex ⟨e, by rw [e2]; rfl⟩
      · rw [hmo] at hu
        obtain ⟨k1, k2, k3⟩ := core_owned hr ht h hm' hor (Or.inr ⟨hu, hn⟩)
        refine recF_core (i2 n hu hn) k1 hmem ?_ ?_
        · refine k2.imp_right ?_
          rintro ⟨e, src, e2⟩
          subst e; subst e2
          fstep_cases h
          exact ⟨_, _, _, List.mem_cons_self⟩
        · refine k3.imp_right ?_
          rintro ⟨e, src, k, e2⟩
          subst e; subst e2
          fstep_cases h <;> exact ⟨_, List.mem_cons_self⟩
    refine ⟨trivial, hold, ?_, ?_, ?_, ?_⟩
    · intro e
      subst e
      have := hF t f hft
      cases f <;> fstep_cases h <;> first | exact recI_none rfl rfl | exact this
    · intro l e h' hm'
      subst e
      exact recI_go hr ht h (hF t f hft) hm'
    · intro h' e
      subst e
      have := (hF t f hft).1
      cases f <;> fstep_cases h <;> (try exact recI_none rfl rfl)
      rename_i c my n st ar d _
      obtain ⟨n1, n2, n3, n4, n5, n6, n7⟩ := this _ rfl
      refine ⟨fun n e => absurd e (by simp [Frame.newRec]), fun n' hu e => ?_⟩
      injection e with e2
      subst e2
      refine ⟨⟨t, c, d, ?_, fun _ => n7⟩, ?_, ?_, ?_, ?_, ?_, ?_, ?_, ?_⟩ <;>
        simp [G.emit, Frame.uninit, Frame.unlinked, Frame.isBt4, Frame.runs,
          Frame.unlinking, n1, n2, n3, n4, n5, n6]
    · intro e h' hm'
      rcases unwound_cases rest with e | ⟨f', m, hf', ha, e⟩
      · rw [e, List.mem_singleton] at hm'; subst hm'
        exact recI_none rfl rfl
      · rw [e] at hm'
        rcases List.mem_cons.1 hm' with hm' | hm'
        · subst hm'
          refine ⟨fun n e => absurd e (by simp [Frame.newRec]), fun n' hu e => ?_⟩
          injection e with e2
          subst e2
          have := (hold t f' (by rw [ht]; exact List.mem_cons_of_mem _ hf') (fun _ => hf')).2 m hu
            (thr_of_armed ha).1
          exact recF_frame this
            (by simp [Frame.uninit]) (by simp [Frame.unlinked])
            (fun _ => by cases f' <;> first | rfl | cases ha)
            (by simp [Frame.isBt4]) (by simp [Frame.runs]) (by simp [Frame.unlinking])
        · rw [List.mem_singleton] at hm'; subst hm'
          exact recI_none rfl rfl
  · intro s t i h hr hA _ _ hF _ _ hp _
    cases h <;> simp [Frame.pushable] at hp <;> exact recI_none rfl rfl
  · intro s t hr hA _ hne hF h' hm'
    rcases unwound_cases (s.th t) with e | ⟨f', m, hf', ha, e⟩
    · rw [e, List.mem_singleton] at hm'; subst hm'
      exact recI_none rfl rfl
    · rw [e] at hm'
      rcases List.mem_cons.1 hm' with hm' | hm'
      · subst hm'
        refine ⟨fun n e => absurd e (by simp [Frame.newRec]), fun n' hu e => ?_⟩
        injection e with e2
        subst e2
        exact recF_frame ((hF t f' hf').2 m hu (thr_of_armed ha).1)
          (by simp [Frame.uninit]) (by simp [Frame.unlinked])
          (fun _ => by cases f' <;> first | rfl | cases ha)
          (by simp [Frame.isBt4]) (by simp [Frame.runs]) (by simp [Frame.unlinking])
      · rw [List.mem_singleton] at hm'; subst hm'
        exact recI_none rfl rfl
  · intro s t c d rest hr hA ht _ hF
    refine ⟨trivial, fun h hm => ⟨fun n hn => ?_, fun n hu => absurd rfl hu⟩⟩
    rcases List.mem_cons.1 hm with e | hm
    · subst e; cases hn
    rcases List.mem_cons.1 hm with e | hm
    · subst e; cases hn
    have := hA h (by rw [ht]; exact List.mem_cons_of_mem _ hm)
    cases h <;> first | (cases hn; done) | (simp [Frame.forkOk, Frame.making] at this; done)
  · intro s t rest hr hA ht _ hF
    refine ⟨trivial, fun h hm => ⟨fun n hn => ?_, fun n hu => absurd rfl hu⟩⟩
    rcases List.mem_cons.1 hm with e | hm
    · subst e; cases hn
    have := hA h (by rw [ht]; exact List.mem_cons_of_mem _ hm)
    cases h <;> first | (cases hn; done) | (simp [Frame.forkOk, Frame.making] at this; done)

end Libmonitor.Proc
