import Verif.Proc.LifeOrder
/-!
# What init-thread returned is what the record says
-/

namespace Libmonitor.Proc

def tokInitRet : Frame → Nat
  | .bt0 _ | .bt1 _ | .bt2 _ | .bt3 _ | .btInit _ => 1
  | _ => 0

theorem life_initRet {A : S → Lbl → Prop} {s : S} (hs : ReachA A s) (u : Tid) :
    toks tokInitRet (s.th u) + occursBy u Ev.isInitThreadRet s.g.tr ≤ 1 ∧
      (s.g.nextTid ≤ u → toks tokInitRet (s.th u) + occursBy u Ev.isInitThreadRet s.g.tr = 0) := by
  refine life_inv rfl ?_ (fun _ => rfl) (fun _ => rfl) (fun _ => rfl) rfl (fun _ => rfl) ?_ hs u
  · intro f hf
    cases f <;> first | rfl | (simp [Frame.pushable] at hf; done)
  · intro g t ok v f g' nx sp h
    cases f <;> fstep_cases h <;>
      simp [listInit, G.emit, G.upd, Next.toks, toks, occursBy_cons, Ev.isInitThreadRet, tokInitRet] <;>
      omega

theorem no_ret {A : S → Lbl → Prop} {s : S} (hs : ReachA A s) {u : Tid} {f : Frame}
    (hf : f ∈ s.th u) (h1 : tokInitRet f = 1) (k : Int) (v : Data) :
    (u, .initThreadRet k v) ∉ s.g.tr := by
  intro hm
  have h2 := occursBy_pos (p := Ev.isInitThreadRet) hm rfl
  have h3 := toks_mem (tok := tokInitRet) hf
  have h4 := (life_initRet hs u).1
  omega

theorem ret_new {g g' : G} {t : Tid} {ok : Bool} {v : Nat} {f : Frame} {nx : Next}
    {sp : Option Frame} (h : fstep g t ok v f = some (g', nx, sp)) {u : Tid} {k : Int} {d : Data}
    (hm : (u, .initThreadRet k d) ∈ g'.tr) :
    (u, .initThreadRet k d) ∈ g.tr ∨ (u = t ∧ ∃ n, f = .btInit n) := by
  cases f <;> fstep_cases h <;> first
    | exact Or.inl hm
    | (simp [listInit, G.emit, G.upd] at hm; exact Or.inl hm)
    | skip
  rcases List.mem_cons.1 hm with hm | hm
  · injection hm with h1 _; exact Or.inr ⟨h1, _, rfl⟩
  · exact Or.inl hm

def RetF (tr : Hist) (u : Tid) (n : NodeId) (m : Node) : Prop :=
  (∀ k v, (u, .initThreadRet k v) ∈ tr → m.tid = k ∧ m.data = v) ∧
  ((∃ k v, (u, .initThreadRet k v) ∈ tr) ∨ ∃ w c, (w, .spawn c u n m.start m.arg m.data) ∈ tr)

theorem retF_mono {tr tr' : Hist} {u : Tid} {n : NodeId} {m m' : Node} (h : RetF tr u n m)
    (h1 : ∀ k v, (u, .initThreadRet k v) ∈ tr' → (u, .initThreadRet k v) ∈ tr)
    (h2 : ∀ e, e ∈ tr → e ∈ tr') (h3 : m'.tid = m.tid) (h4 : m'.data = m.data)
    (h5 : m'.start = m.start) (h6 : m'.arg = m.arg) : RetF tr' u n m' := by
  refine ⟨fun k v hm => ?_, ?_⟩
  · rw [h3, h4]; exact h.1 k v (h1 k v hm)
  · rw [h4, h5, h6]
    rcases h.2 with ⟨k, v, h⟩ | ⟨w, c, h⟩
    · exact Or.inl ⟨k, v, h2 _ h⟩
    · exact Or.inr ⟨w, c, h2 _ h⟩

def RetI (g : G) (u : Tid) (f : Frame) : Prop :=
  ∀ n, u ≠ mainOf g.tr → f.thr = some n → RetF g.tr u n (g.nodes n)

theorem retI_none {g : G} {u : Tid} {f : Frame} (h : f.thr = none) : RetI g u f :=
  fun n _ e => absurd e (by rw [h]; simp)

theorem retI_go {s : S} (hs : ReachA Clean s) {t : Tid} {f : Frame} {rest : List Frame}
    {ok : Bool} {v : Nat} {g' : G} {l : List Frame} {sp : Option Frame} (ht : s.th t = f :: rest)
    (h : fstep s.g t ok v f = some (g', .go l, sp)) (hF : RetI s.g t f) {h' : Frame}
    (hm : h' ∈ l) : RetI g' t h' := by
  intro n hu hn
  have hft : f ∈ s.th t := by rw [ht]; exact List.mem_cons_self
  rw [mainOf_fstep h] at hu
  have hfn := ((tsd_new h hm).2 n hn).2
  have hR := hF n hu hfn
  have h2 := mem_of_fstep h
  by_cases e : ∃ m, f = .btInit m
  · obtain ⟨m, e⟩ := e
    subst e
    injection hfn with hfn; subst hfn
    have h0 := no_ret hs hft rfl
    have hk := (recI_inv hs hft).2 m hu rfl
    fstep_cases h
    refine ⟨fun k d hm => ?_, Or.inl ⟨_, _, List.mem_cons_self⟩⟩
    rcases List.mem_cons.1 hm with hm | hm
    · injection hm with _ hm
      injection hm with h1 h2
      simp [G.emit, G.upd, h1, h2]
    · exact absurd hm (h0 k d)
  · have h1 : ∀ k v, (t, .initThreadRet k v) ∈ g'.tr → (t, .initThreadRet k v) ∈ s.g.tr :=
      fun k v hm => (ret_new h hm).resolve_right (fun hh => e hh.2)
    by_cases e2 : ∃ m, f = .bt2 m
    · obtain ⟨m, e2⟩ := e2
      subst e2
      injection hfn with hfn; subst hfn
      have h0 := no_ret hs hft rfl
      refine ⟨fun k d hm => absurd (h1 k d hm) (h0 k d), ?_⟩
      rcases hR.2 with ⟨k, d, hh⟩ | ⟨w, c, hh⟩
      · exact absurd hh (h0 k d)
      · refine Or.inr ⟨w, c, ?_⟩
        fstep_cases h
        · exact h2 _ hh
        · simp [G.emit, G.upd]; exact hh
    · cases f <;> first
        | exact absurd ⟨_, rfl⟩ e
        | exact absurd ⟨_, rfl⟩ e2
        | (cases hfn; done)
        | (injection hfn with hfn; subst hfn
           fstep_cases h <;> first
             | (cases hm; done)
             | (refine retF_mono hR h1 h2 ?_ ?_ ?_ ?_ <;> simp [G.emit, G.upd]; done))
        | skip
      · rename_i n0 src
        simp only [Frame.thr, Option.ite_none_right_eq_some, Option.some.injEq] at hfn
        obtain ⟨_, hfn⟩ := hfn
        subst hfn
        fstep_cases h
        refine retF_mono hR h1 h2 ?_ ?_ ?_ ?_ <;> simp [G.emit, G.upd]
      · rename_i n0 src k0
        simp only [Frame.thr, Option.ite_none_right_eq_some, Option.some.injEq] at hfn
        obtain ⟨_, hfn⟩ := hfn
        subst hfn
        fstep_cases h <;>
          (refine retF_mono hR h1 h2 ?_ ?_ ?_ ?_ <;> simp [G.emit, G.upd])

/-- The thread's data is what init-thread returned, or, as long as it has not returned, what
pre-create returned. -/
theorem retI_inv {s : S} (hs : ReachA Clean s) {u : Tid} {f : Frame} (hf : f ∈ s.th u) :
    RetI s.g u f := by
  refine (frames_invA (A := Clean) (GI := fun _ => True) (FI := RetI) trivial (retI_none rfl) ?_
    (fun _ h => h) (fun _ _ _ h => h) ?_ ?_ ?_ ?_ hs).2 u f hf
  · intro s t f rest ok v g' nx sp hr hA ht _ hF h
    have hft : f ∈ s.th t := by rw [ht]; exact List.mem_cons_self
    have hmo := mainOf_fstep h
    have hmem : ∀ e, e ∈ s.g.tr → e ∈ g'.tr := mem_of_fstep h
    have hsh := shape_inv hr t
    rw [ht] at hsh
    have hold : ∀ u h', h' ∈ s.th u → (u = t → h' ∈ rest) → RetI g' u h' := by
      intro u h' hm' hor n hu hn
      rw [hmo] at hu
      obtain ⟨k1, _, _⟩ := core_owned hr ht h hm' hor (Or.inr ⟨hu, hn⟩)
      obtain ⟨e1, e2, e3, e4, e5⟩ := core_eq k1
      refine retF_mono (hF u h' hm' n hu hn) (fun k v hm => ?_) hmem e1 e4 e2 e3
      refine (ret_new h hm).resolve_right ?_
      rintro ⟨e, m, e6⟩
      subst e6
      have := hor e
      rw [hsh.1 rfl] at this; cases this
    refine ⟨trivial, hold, ?_, ?_, ?_, ?_⟩
    · intro e
      subst e
      have := hF t f hft
      cases f <;> fstep_cases h <;> first | exact retI_none rfl | exact this
    · intro l e h' hm'
      subst e
      exact retI_go hr ht h (hF t f hft) hm'
    · intro h' e
      subst e
      have := (recI_inv hr hft).1
      have h0 := (life_initRet hr s.g.nextTid).2 (Nat.le_refl _)
      cases f <;> fstep_cases h <;> (try exact retI_none rfl)
      rename_i c my n st ar d _
      obtain ⟨n1, n2, n3, n4, n5, n6, n7⟩ := this _ rfl
      intro n' hu e
      injection e with e2
      subst e2
      refine ⟨fun k v hm => ?_, Or.inr ⟨t, c, ?_⟩⟩
      · simp [G.emit] at hm
        have := occursBy_pos (p := Ev.isInitThreadRet) hm rfl
        omega
      · simp [G.emit, n5, n6, n7]
    · intro e h' hm'
      rcases unwound_cases rest with e | ⟨f', m, hf', ha, e⟩
      · rw [e, List.mem_singleton] at hm'; subst hm'
        exact retI_none rfl
      · rw [e] at hm'
        rcases List.mem_cons.1 hm' with hm' | hm'
        · subst hm'
          intro n' hu e
          injection e with e2
          subst e2
          exact hold t f' (by rw [ht]; exact List.mem_cons_of_mem _ hf') (fun _ => hf') m hu
            (thr_of_armed ha).1
        · rw [List.mem_singleton] at hm'; subst hm'
          exact retI_none rfl
  · intro s t i h hr hA _ _ hF _ _ hp _
    cases h <;> simp [Frame.pushable] at hp <;> exact retI_none rfl
  · intro s t hr hA _ hne hF h' hm'
    rcases unwound_cases (s.th t) with e | ⟨f', m, hf', ha, e⟩
    · rw [e, List.mem_singleton] at hm'; subst hm'
      exact retI_none rfl
    · rw [e] at hm'
      rcases List.mem_cons.1 hm' with hm' | hm'
      · subst hm'
        intro n' hu e
        injection e with e2
        subst e2
        exact hF t f' hf' m hu (thr_of_armed ha).1
      · rw [List.mem_singleton] at hm'; subst hm'
        exact retI_none rfl
  · intro s t c d rest hr hA ht _ hF
    exact ⟨trivial, fun h hm n hu => absurd rfl hu⟩
  · intro s t rest hr hA ht _ hF
    exact ⟨trivial, fun h hm n hu => absurd rfl hu⟩

/-- A record that its thread has looked up, or that the cleanup routine works on. -/
theorem owner_frame {s : S} (hs : ReachA Clean s) {u : Tid} {f : Frame} (hf : f ∈ s.th u)
    (hu : u ≠ mainOf s.g.tr) {n : NodeId} (hn : f.holds = some n ∨ f.thr = some n) :
    n ≠ .main ∧ ∃ f' ∈ s.th u, f'.thr = some n ∧ (f.thr = some n → f' = f) := by
  rcases hn with hn | hn
  · have hm := held_inv hs hf hn
    have hne : n ≠ .main := by
      rcases hm with ⟨_, e⟩ | ⟨e, _⟩
      · exact absurd e hu
      · exact e
    by_cases e : f.thr = some n
    · exact ⟨hne, f, hf, e, fun _ => rfl⟩
    have h3 : s.th u ≠ [.tdtor] := by
      intro e; rw [e, List.mem_singleton] at hf; subst hf; cases hn
    obtain ⟨f', h1, h2, _, _⟩ := mine_claims hs hm hne (List.ne_nil_of_mem hf) h3
    exact ⟨hne, f', h1, h2, fun h => absurd h e⟩
  · exact ⟨claims_ne_main hs hf (Or.inr hn), f, hf, hn, fun _ => rfl⟩

/-- Which record a pending fini-thread is for. -/
theorem fin_rec (n : NodeId) (src : Src) :
    (Frame.fin0 n src).holds = some n ∨ (Frame.fin0 n src).thr = some n := by
  cases src <;> first | exact Or.inl rfl | exact Or.inr rfl

/-- Fini-thread is delivered only for threads that got to their start routine, except by the
winner for itself. -/
theorem finAppl_inv {s : S} (hs : ReachA Clean s) {u : Tid} {n : NodeId} {src : Src}
    (hf : .fin0 n src ∈ s.th u) (hu : u ≠ mainOf s.g.tr) (hsrc : src ≠ .winner) :
    (s.g.nodes n).appl = true := by
  refine (frames_invA (A := Clean) (GI := fun _ => True)
    (FI := fun g u f => ∀ n src, f = .fin0 n src → u ≠ mainOf g.tr → src ≠ .winner →
      (g.nodes n).appl = true) trivial ?_ ?_
    (fun _ h => h) (fun _ _ _ h => h) ?_ ?_ ?_ ?_ hs).2 u _ hf n src rfl hu hsrc
  · intro n src e; cases e
  · intro s t f rest ok v g' nx sp hr hA ht _ hF h
    have hft : f ∈ s.th t := by rw [ht]; exact List.mem_cons_self
    have hmo := mainOf_fstep h
    have hsh := shape_inv hr t
    rw [ht] at hsh
    refine ⟨trivial, ?_, ?_, ?_, ?_, ?_⟩
    · intro u h' hm' hor n src e hu hsrc
      subst e
      rw [hmo] at hu
      obtain ⟨hne, f', h1, h2, h3⟩ := owner_frame hr hm' hu (fin_rec n src)
      have hor' : u = t → f' ∈ rest := by
        intro e; subst e
        rw [ht] at h1
        rcases List.mem_cons.1 h1 with e | h1
        · subst e
          exfalso
          have hm2 := hor rfl
          have hr2 : rest = [] ∨ rest = [.tdtor] := by
            cases f' <;> first
              | (cases h2; done)
              | exact Or.inl (hsh.1 rfl)
              | exact Or.inr (hsh.2.1 rfl)
              | (simp only [Frame.thr, Option.ite_none_right_eq_some] at h2
                 exact Or.inr (hsh.2.1 (by simp [Frame.cleanup, h2.1])))
          rcases hr2 with e | e <;> rw [e] at hm2 <;> simp at hm2
        · exact h1
      have k1 := (core_owned hr ht h h1 hor' (Or.inr ⟨hu, h2⟩)).1
      rw [(core_eq k1).2.2.2.2]
      exact hF u _ hm' n src rfl hu hsrc
    · intro e n src e2
      subst e2
      fstep_cases h
      cases e
    · intro l e h' hm' n src e2 hu hsrc
      subst e; subst e2
      cases f <;> fstep_cases h <;>
        simp only [List.mem_cons, List.not_mem_nil, or_false, reduceCtorEq, Frame.fin0.injEq] at hm' <;>
        first
        | (obtain ⟨e1, e2⟩ := hm'
           subst e1
           first
           | exact absurd e2 hsrc
           | (have hmf : mayFini s.g n = true := by simp_all
              simp only [mayFini, Bool.and_eq_true] at hmf
              exact hmf.1.1.1.2))
        | skip
    · intro h' e n src e2
      subst e; subst e2
      cases f <;> fstep_cases h
    · intro e h' hm' n src e2
      subst e2
      rcases unwound_cases rest with e | ⟨f', m, hf', ha, e⟩ <;> rw [e] at hm' <;> simp at hm'
  · intro s t i h hr hA _ _ hF _ _ hp _ n src e
    subst e; cases hp
  · intro s t hr hA _ hne hF h' hm' n src e2
    subst e2
    rcases unwound_cases (s.th t) with e | ⟨f', m, hf', ha, e⟩ <;> rw [e] at hm' <;> simp at hm'
  · intro s t c d rest hr hA ht _ hF
    exact ⟨trivial, fun h hm n src _ hu => absurd rfl hu⟩
  · intro s t rest hr hA ht _ hF
    exact ⟨trivial, fun h hm n src _ hu => absurd rfl hu⟩

end Libmonitor.Proc
