import Verif.Proc.OwnKeep
import Verif.Proc.Data
import Verif.Proc.SpecBlock
/-!
# What monitor_block_shootdown asks for is in the thread's record
-/

namespace Libmonitor.Proc

theorem ReachK.reach {A : S → (Tid → Bool) → Lbl → Prop} {A' : S → Lbl → Prop}
    (hA : ∀ {s B l}, A s B l → A' s l) {s : S} {B : Tid → Bool} (h : ReachK A s B) :
    ReachA A' s := by
  induction h with
  | init => exact .init
  | next _ ha hn ih => exact .next ih (hA ha) hn

theorem reachK_run {A : S → (Tid → Bool) → Lbl → Prop} [∀ s B l, Decidable (A s B l)] {s s' : S}
    {B B' : Tid → Bool} {ls : List Lbl} (h : ReachK A s B)
    (hr : runK A s B ls = some (s', B')) : ReachK A s' B' := by
  induction ls generalizing s B with
  | nil => cases hr; exact h
  | cons l ls ih =>
    simp only [runK] at hr
    split at hr
    · rename_i ha
      cases hn : next s l with
      | none => rw [hn] at hr; cases hr
      | some s1 => rw [hn] at hr; exact ih (.next h ha hn) hr
    · cases hr

theorem exists_of_runK {A : S → (Tid → Bool) → Lbl → Prop} [∀ s B l, Decidable (A s B l)]
    {ls : List Lbl} {p : S → (Tid → Bool) → Bool}
    (h : ((runK A {} (fun _ => false) ls).map (fun x => p x.1 x.2)).getD false = true) :
    ∃ s B, ReachK A s B ∧ p s B = true := by
  cases hr : runK A {} (fun _ => false) ls with
  | none => rw [hr] at h; exact absurd h (by simp)
  | some x =>
    rw [hr] at h
    exact ⟨x.1, x.2, reachK_run .init hr, by simpa using h⟩

/-- The frames that hold a created thread's record are alone on a stack. -/
theorem thr_once {l : List Frame} (hl : Shape l) {f f' : Frame} (hf : f ∈ l) (hf' : f' ∈ l)
    {n n' : NodeId} (hn : f.thr = some n) (hn' : f'.thr = some n') : f = f' := by
  have key : ∀ {f f' : Frame} {rest : List Frame} {n n' : NodeId}, Shape (f :: rest) →
      f.thr = some n → f' ∈ rest → f'.thr = some n' → False := by
    intro f f' rest n n' hs h1 h2 h3
    obtain ⟨s1, s2, _⟩ := hs
    have : f.bottom = true ∨ f.cleanup = true := by
      cases f <;> first | cases h1; done | exact Or.inl rfl | exact Or.inr rfl | skip
      all_goals
        simp only [Frame.thr, Option.ite_none_right_eq_some] at h1
        exact Or.inr (by simp [Frame.cleanup, h1.1])
    rcases this with e | e
    · rw [s1 e] at h2; cases h2
    · rw [s2 e, List.mem_singleton] at h2; subst h2; cases h3
  induction l with
  | nil => cases hf
  | cons x l ih =>
    rcases List.mem_cons.1 hf with e | hf1
    · subst e
      rcases List.mem_cons.1 hf' with e | hf'
      · exact e.symm
      · exact (key hl hn hf' hn').elim
    · rcases List.mem_cons.1 hf' with e | hf2
      · subst e; exact (key hl hn' hf1 hn).elim
      · exact ih hl.2.2 hf1 hf2

/-- Only these steps change tn_block_shootdown in a record. -/
theorem block_keep {g g' : G} {t : Tid} {ok : Bool} {v : Nat} {f : Frame} {nx : Next}
    {sp : Option Frame} (h : fstep g t ok v f = some (g', nx, sp)) {n : NodeId}
    (hr : f.resetting = false ∨ n ≠ .main) (h1 : ∀ b, f ≠ .qBlock b) (h2 : f ≠ .ul1 n)
    (h3 : ∀ a c my st ar d, f = .mk1 c my st ar d → alloc g ok = some a → a.n ≠ n) :
    (g'.nodes n).block = (g.nodes n).block := by
  by_cases hw : writes g t ok f = some n
  · cases f <;> first | exact absurd rfl (h1 _) | skip
    all_goals fstep_cases h <;> first | rfl | skip
    all_goals
      simp only [writes] at hw
      first
      | (injection hw with hw
         subst hw
         first
         | exact absurd rfl h2
         | (simp [G.emit, G.upd, listInit]; done)
         | (exact absurd rfl (hr.resolve_left (by simp [Frame.resetting]))))
      | (rename_i hg
         rw [hg] at hw
         injection hw with hw
         first
         | exact absurd hw (h3 _ _ _ _ _ _ rfl hg)
         | (subst hw; simp [G.emit, G.upd]; done))
      | skip
    all_goals
      rename_i m hg
      have : m = n := by
        have : some m = some n := hg.symm.trans hw
        injection this
      subst this
      simp [G.emit, G.upd]
  · rw [node_keep h hw]

/-- The reset in a child keeps main's tn_block_shootdown if the thread is main's. -/
theorem block_reset {g g' : G} {t : Tid} {ok : Bool} {v : Nat} {f : Frame} {nx : Next}
    {sp : Option Frame} (h : fstep g t ok v f = some (g', nx, sp)) (hf : f.resetting = true)
    (hg : ∀ n, getTn g t = some n → n = .main) :
    (g'.nodes .main).block = (g.nodes .main).block := by
  have hm : ((resetList g t).nodes .main).block = (g.nodes .main).block := by
    unfold resetList
    split
    · show (resetMain g t).block = _
      unfold resetMain
      split
      · rfl
      · rename_i n hn
        rw [if_pos (hg n hn)]; rfl
    · rfl
  cases f <;> first | (cases hf; done) | skip
  all_goals fstep_cases h <;> first | rfl | skip
  · simp [G.emit, G.upd, hm]
  · simp [G.emit, hm]

/-- Where a frame that holds a record comes from, in a step of its thread. -/
theorem thr_from {g g' : G} {t : Tid} {ok : Bool} {v : Nat} {f : Frame} {rest : List Frame}
    {nx : Next} {sp : Option Frame} (h : fstep g t ok v f = some (g', nx, sp))
    {f' : Frame} {n : NodeId} (hn : f'.thr = some n)
    (hm : (∃ l, nx = .go l ∧ f' ∈ l ++ rest) ∨ (nx = .unwind ∧ f' ∈ unwound rest)) :
    ∃ h ∈ f :: rest, h.thr = some n := by
  rcases hm with ⟨l, rfl, hm⟩ | ⟨rfl, hm⟩
  · rcases List.mem_append.1 hm with hm | hm
    · exact ⟨f, List.mem_cons_self, ((tsd_new h hm).2 n hn).2⟩
    · exact ⟨f', List.mem_cons_of_mem _ hm, hn⟩
  · rcases unwound_cases rest with e | ⟨a, m, ha, ham, e⟩
    · rw [e, List.mem_singleton] at hm; subst hm; cases hn
    · rw [e] at hm
      rcases List.mem_cons.1 hm with hm | hm
      · subst hm
        injection hn with hn; subst hn
        exact ⟨a, List.mem_cons_of_mem _ ha, (thr_of_armed ham).1⟩
      · rw [List.mem_singleton] at hm; subst hm; cases hn

structure BlockI (s : S) (B : Tid → Bool) : Prop where
  main : B (mainOf s.g.tr) = true → (s.g.nodes .main).block = true
  child : born s.g.tr = true → B (mainOf s.g.tr) = true →
    ∀ n, getTn s.g (mainOf s.g.tr) = some n → n = .main
  own : ∀ u f, f ∈ s.th u → u ≠ mainOf s.g.tr → ∀ n, f.thr = some n → B u = true →
    (s.g.nodes n).block = true
  fresh : ∀ u, s.g.nextTid ≤ u → B u = false
  fin : ∀ u n src rest, s.th u = .fin0 n src :: rest → src ≠ .winner → B u = false

/-- A record that may get fini-thread is the record of a thread that does not block. -/
theorem blockI_mine {s : S} {B : Tid → Bool} (hs : ReachA Clean s) (hI : BlockI s B) {t : Tid}
    {n : NodeId} (hm : Mine s.g t n) (h1 : s.th t ≠ []) (h2 : s.th t ≠ [.tdtor])
    (hb : (s.g.nodes n).block = false) : B t = false := by
  cases hB : B t with
  | false => rfl
  | true =>
    by_cases hn : n = .main
    · rcases hm with ⟨_, e⟩ | ⟨e, _⟩
      · subst e; rw [hn, hI.main hB] at hb; cases hb
      · exact absurd hn e
    · obtain ⟨f, hf, k1, _, k3⟩ := mine_claims hs hm hn h1 h2
      rcases hm with ⟨e, _⟩ | ⟨_, e, _⟩
      · exact absurd e hn
      · rw [hI.own t f hf e n k1 hB] at hb; cases hb

theorem kept_ne {s : S} {t : Tid} {i : Inp} {B : Tid → Bool} {u : Tid} (h : u ≠ t) :
    kept s (.step t i) B u = B u := by
  cases i <;> first | rfl | skip
  simp only [kept]
  rcases s.th t with _ | ⟨f, r⟩
  · rfl
  · cases f <;> first | rfl | exact if_neg h

theorem kept_go {s : S} {t : Tid} {ok : Bool} {v : Nat} {B : Tid → Bool} {f : Frame}
    {rest : List Frame} (ht : s.th t = f :: rest) (hf : ∀ b, f ≠ .qBlock b) :
    kept s (.step t (.go ok v)) B = B := by
  unfold kept
  simp only [ht]
  split
  · rename_i heq
    injection heq with e; exact absurd e (hf _)
  · rfl

theorem kept_block {s : S} {t : Tid} {ok : Bool} {v : Nat} {B : Tid → Bool} {b : Bool}
    {rest : List Frame} (ht : s.th t = .qBlock b :: rest) (u : Tid) :
    kept s (.step t (.go ok v)) B u = if u = t then b else B u := by
  unfold kept
  simp only [ht]

theorem fin_from {g g' : G} {t : Tid} {ok : Bool} {v : Nat} {f : Frame} {l : List Frame}
    {sp : Option Frame} {n : NodeId} {src : Src}
    (h : fstep g t ok v f = some (g', .go (.fin0 n src :: l), sp)) (hs : src ≠ .winner) :
    (g.nodes n).block = false ∧
      ((f = .h0 ∧ g.tsd t = some n) ∨ f = .cl0 n ∨ (f = .sw0 ∧ getTn g t = some n)) := by
  cases f <;> fstep_cases h <;> first | exact absurd rfl hs | skip
  all_goals
    rename_i hm
    simp [mayFini] at hm
  · exact ⟨hm.1.2, Or.inl ⟨rfl, by assumption⟩⟩
  · exact ⟨hm.1.2, Or.inr (Or.inl rfl)⟩
  · exact ⟨hm.2.1.2, Or.inr (Or.inr ⟨rfl, by assumption⟩)⟩

theorem applyRes_elsewhere {s : S} {t : Tid} {rest : List Frame} {g : G} {nx : Next}
    {sp : Option Frame} {u : Tid} (h : u ≠ t) :
    (applyRes s t rest (g, nx, sp)).th u = s.th u ∨
      (u = s.g.nextTid ∧ ∃ f0, sp = some f0 ∧ (applyRes s t rest (g, nx, sp)).th u = [f0]) := by
  have hth : ∀ sp : Option Frame, (match sp with
      | some f => setTh s.th s.g.nextTid [f]
      | none => s.th) u = s.th u ∨ (u = s.g.nextTid ∧ ∃ f0, sp = some f0 ∧ (match sp with
      | some f => setTh s.th s.g.nextTid [f]
      | none => s.th) u = [f0]) := by
    intro sp
    cases sp with
    | none => exact Or.inl rfl
    | some f =>
      by_cases e : u = s.g.nextTid
      · subst e; exact Or.inr ⟨rfl, f, rfl, setTh_self _ _ _⟩
      · exact Or.inl (setTh_ne _ _ e)
  have := hth sp
  cases nx <;> simp only [applyRes]
  · rw [setTh_ne _ _ h]; exact this
  · rw [setTh_ne _ _ h]; exact this
  · exact this

theorem applyRes_same {s : S} {t : Tid} {rest : List Frame} {g : G} {nx : Next}
    {sp : Option Frame} (hn : t ≠ s.g.nextTid) :
    (∃ l, nx = .go l ∧ (applyRes s t rest (g, nx, sp)).th t = l ++ rest) ∨
      (nx = .unwind ∧ (applyRes s t rest (g, nx, sp)).th t = unwound rest) ∨
      (nx = .die ∧ (applyRes s t rest (g, nx, sp)).th t = s.th t) := by
  cases nx with
  | go l => exact Or.inl ⟨l, rfl, by simp [applyRes, setTh]⟩
  | unwind => exact Or.inr (Or.inl ⟨rfl, by simp [applyRes, setTh]⟩)
  | die =>
    refine Or.inr (Or.inr ⟨rfl, ?_⟩)
    cases sp with
    | none => rfl
    | some f => exact setTh_ne _ _ hn

theorem birth_kept {s : S} (hs : ReachA Clean s) {t : Tid} {f : Frame} {rest : List Frame}
    {ok : Bool} {v : Nat} {g' : G} {nx : Next} {sp : Option Frame} (ht : s.th t = f :: rest)
    (h : fstep s.g t ok v f = some (g', nx, sp)) (hb : born g'.tr = true) :
    born s.g.tr = true ∧ t = mainOf s.g.tr ∧ getTn g' t = getTn s.g t := by
  have hb0 : born s.g.tr = true := by
    obtain ⟨es, he, hf⟩ := fstep_forked h
    rw [he] at hb
    cases es with
    | nil => exact hb
    | cons e es =>
      have := hf e List.mem_cons_self
      have hb : e.isForked = true := hb
      rw [hb] at this; cases this
  obtain ⟨h1, h2, _⟩ := birth_step hs ht hb0
  refine ⟨hb0, h1, ?_⟩
  cases f <;> first | (cases h2; done) | skip
  all_goals fstep_cases h <;> first | rfl | (cases hb; done) | skip
  all_goals simp [Frame.resetting] at h2

theorem blockI_go {s : S} {B : Tid → Bool} (hr : ReachA Clean s) (hI : BlockI s B) {t : Tid}
    {f : Frame} {rest : List Frame} {ok : Bool} {v : Nat} {g' : G} {nx : Next} {sp : Option Frame}
    (ht : s.th t = f :: rest) (h : fstep s.g t ok v f = some (g', nx, sp))
    (hA : Blocking s B (.step t (.go ok v))) :
    BlockI (applyRes s t rest (g', nx, sp)) (kept s (.step t (.go ok v)) B) := by
  obtain ⟨hC, hA1, hA2⟩ := hA
  have hft : f ∈ s.th t := by rw [ht]; exact List.mem_cons_self
  have hne : s.th t ≠ [] := by rw [ht]; simp
  have hlt : ¬ s.g.nextTid ≤ t := fun e => hne (fresh_inv hr t e)
  have htn : t ≠ s.g.nextTid := fun e => hlt (by rw [e]; exact Nat.le_refl _)
  have hnx : s.g.nextTid ≤ g'.nextTid := by
    rcases fstep_spawn h with ⟨_, e⟩ | ⟨_, _, _, e, _⟩ <;> omega
  have hg : (applyRes s t rest (g', nx, sp)).g.tr = g'.tr ∧
      (applyRes s t rest (g', nx, sp)).g.nodes = g'.nodes ∧
      (applyRes s t rest (g', nx, sp)).g.nextTid = g'.nextTid ∧
      ∀ u, getTn (applyRes s t rest (g', nx, sp)).g u = getTn g' u := by
    rw [applyRes_g]; split <;> exact ⟨rfl, rfl, rfl, fun _ => rfl⟩
  obtain ⟨g1, g2, g3, g4⟩ := hg
  have hmain := mainOf_fstep h
  have hsh := shape_inv hr t
  -- what this thread writes when it is blocked
  have hq : ∀ b, f = .qBlock b → ∀ n, getTn s.g t = some n → Mine s.g t n ∧
      (g'.nodes n).block = b ∧ ∀ m, m ≠ n → g'.nodes m = s.g.nodes m := by
    intro b e n hn
    subst e
    refine ⟨getTn_mine hr (not_born hr ht rfl) hne hn, ?_⟩
    simp only [fstep, hn, cont] at h
    injection h with h; injection h with h _; subst h
    exact ⟨by simp [G.upd], fun m hm => by simp [G.upd, hm]⟩
  have hal : ∀ n, (n = .main ∨ ∃ u f', f' ∈ s.th u ∧ claims s.g u f' n) →
      ∀ a c my st ar d, f = .mk1 c my st ar d → alloc s.g ok = some a → a.n ≠ n := by
    intro n hn a c my st ar d _ ha e
    rcases hn with hn | ⟨u, f', hf', hc⟩
    · exact (alloc_ne_main (rec_inv hr).1 ha).1 (e.trans hn)
    · have := alloc_pos (arr_inv hr) ha
      rw [e, claims_avail hr (claims_ne_main hr hf' (hc.imp_right And.right)) hf' hc] at this
      omega
  refine ⟨?_, ?_, ?_, ?_, ?_⟩
  · rw [g1, g2, hmain]
    intro hB
    by_cases hqb : ∃ b, f = .qBlock b
    · obtain ⟨b, e⟩ := hqb
      subst e
      rw [kept_block ht] at hB
      cases hn : getTn s.g t with
      | none =>
        have : g' = s.g := by
          simp only [fstep, hn, cont] at h
          injection h with h; injection h with h _; exact h.symm
        rw [this]
        split at hB
        · subst hB
          exact absurd hn (hA1 (by rw [ht]; rfl))
        · exact hI.main hB
      | some n =>
        obtain ⟨k1, k2, k3⟩ := hq b rfl n hn
        by_cases e : mainOf s.g.tr = t
        · rw [if_pos e] at hB
          rcases k1 with ⟨e1, _⟩ | ⟨_, e1, _⟩
          · rw [← e1, k2, hB]
          · exact absurd e.symm e1
        · rw [if_neg e] at hB
          rcases k1 with ⟨_, e1⟩ | ⟨e1, _⟩
          · exact absurd e1.symm e
          · rw [k3 _ (fun e => e1 e.symm)]; exact hI.main hB
    · have hqb : ∀ b, f ≠ .qBlock b := fun b e => hqb ⟨b, e⟩
      rw [kept_go ht hqb] at hB
      cases hres : f.resetting with
      | false =>
        rw [block_keep h (Or.inl hres) hqb ?_ (hal _ (Or.inl rfl))]
        · exact hI.main hB
        · intro e; subst e
          exact claims_ne_main hr hft (Or.inr rfl) rfl
      | true =>
        rw [block_reset h hres ?_]
        · exact hI.main hB
        · intro n hn
          have hb := ((base_inv hr).2 t f hft).2.1 hres
          have e := (birth_step hr ht hb).1
          exact hI.child hb hB n (by rw [← e]; exact hn)
  · rw [g1, hmain]
    intro hb hB n hn
    rw [g4] at hn
    obtain ⟨b1, b2, b3⟩ := birth_kept hr ht h hb
    rw [← b2, b3, b2] at hn
    refine hI.child b1 ?_ n hn
    rw [kept_go ht ?_] at hB
    · exact hB
    · intro b e
      have := (birth_step hr ht b1).2.1
      rw [e] at this; cases this
  · rw [g1, g2, hmain]
    intro u f' hf' hu n hn hB
    by_cases hut : u = t
    · subst hut
      have hfrom : ∃ hx ∈ s.th u, hx.thr = some n := by
        rcases applyRes_same (rest := rest) (g := g') (nx := nx) (sp := sp) htn with
          ⟨l, e1, e2⟩ | ⟨e1, e2⟩ | ⟨_, e2⟩
        · rw [e2] at hf'; rw [ht]; exact thr_from h hn (Or.inl ⟨l, e1, hf'⟩)
        · rw [e2] at hf'; rw [ht]; exact thr_from h hn (Or.inr ⟨e1, hf'⟩)
        · rw [e2] at hf'; exact ⟨f', hf', hn⟩
      obtain ⟨hx, m0, n0⟩ := hfrom
      have hc : claims s.g u hx n := Or.inr ⟨hu, n0⟩
      by_cases hqb : ∃ b, f = .qBlock b
      · obtain ⟨b, e⟩ := hqb
        subst e
        rw [kept_block ht, if_pos rfl] at hB
        subst hB
        cases hn' : getTn s.g u with
        | none => exact absurd hn' (hA1 (by rw [ht]; rfl))
        | some n' =>
          obtain ⟨k1, k2, _⟩ := hq true rfl n' hn'
          have hnm : n' ≠ .main := by
            rcases k1 with ⟨_, e⟩ | ⟨e, _⟩
            · exact absurd e hu
            · exact e
          obtain ⟨h1, m1, n1, _⟩ := mine_claims hr k1 hnm hne (by rw [ht]; simp)
          have := thr_once hsh m0 m1 n0 n1
          subst this
          rw [n0] at n1; injection n1 with n1
          rw [n1]; exact k2
      · have hqb : ∀ b, f ≠ .qBlock b := fun b e => hqb ⟨b, e⟩
        rw [kept_go ht hqb] at hB
        by_cases hul : f = .ul1 n
        · subst hul
          rw [ht] at hsh
          have hrest := hsh.2.1 rfl
          fstep_cases h
          · simp [applyRes, setTh, hrest] at hf'
            subst hf'; cases hn
          · simp [applyRes, setTh, hrest] at hf'
            subst hf'; cases hn
          · exact hI.own u hx m0 hu n n0 hB
        · rw [block_keep h (Or.inr (claims_ne_main hr m0 (Or.inr n0))) hqb hul
            (hal _ (Or.inr ⟨u, hx, m0, hc⟩))]
          exact hI.own u hx m0 hu n n0 hB
    · rw [kept_ne hut] at hB
      rcases applyRes_elsewhere (s := s) (rest := rest) (g := g') (nx := nx) (sp := sp) hut with
        e | ⟨e, _⟩
      · rw [e] at hf'
        rw [nodes_keep hr ht h hut hf' (Or.inr ⟨hu, hn⟩)]
        exact hI.own u f' hf' hu n hn hB
      · rw [hI.fresh u (by rw [e]; exact Nat.le_refl _)] at hB; cases hB
  · rw [g3]
    intro u hu
    rw [kept_ne (fun e => hlt (by rw [← e]; omega))]
    exact hI.fresh u (by omega)
  · intro u n src r hu hs
    by_cases hut : u = t
    · subst hut
      rcases applyRes_same (rest := rest) (g := g') (nx := nx) (sp := sp) htn with
        ⟨l, e1, e2⟩ | ⟨e1, e2⟩ | ⟨e1, e2⟩
      · rw [e2] at hu
        subst e1
        cases l with
        | nil =>
          refine hA2 ?_
          rw [ht, show rest = .fin0 n src :: r from hu]
          exact decide_eq_true hs
        | cons x l =>
          have hx : x = .fin0 n src := by injection hu
          subst hx
          obtain ⟨k1, k2⟩ := fin_from h hs
          rw [kept_go ht (by rcases k2 with ⟨e, _⟩ | e | ⟨e, _⟩ <;> subst e <;> simp)]
          rcases k2 with ⟨e, k2⟩ | e | ⟨e, k2⟩
          · subst e
            exact blockI_mine hr hI (tsd_mine hr (not_born hr ht rfl) hne k2) hne
              (by rw [ht]; simp) k1
          · subst e
            cases hB : B u with
            | false => rfl
            | true =>
              rw [hI.own u _ hft (thr_ne_main hr hft rfl rfl) n rfl hB] at k1; cases k1
          · subst e
            exact blockI_mine hr hI (getTn_mine hr (not_born hr ht rfl) hne k2) hne
              (by rw [ht]; simp) k1
      · rw [e2] at hu
        rcases unwound_cases rest with e | ⟨_, _, _, _, e⟩ <;> rw [e] at hu <;> cases hu
      · rw [e2] at hu
        rw [ht] at hu
        have : f = .fin0 n src := by injection hu
        subst this
        fstep_cases h <;> cases e1
    · rw [kept_ne hut]
      rcases applyRes_elsewhere (s := s) (rest := rest) (g := g') (nx := nx) (sp := sp) hut with
        e | ⟨e, _⟩
      · rw [e] at hu; exact hI.fin u n src r hu hs
      · exact hI.fresh u (by rw [e]; exact Nat.le_refl _)

theorem blockI_push {s : S} {B : Tid → Bool} (hI : BlockI s B) {t : Tid} {l : List Frame}
    (ho : ∀ f ∈ l, ∀ n, f.thr = some n → ∃ h ∈ s.th t, h.thr = some n)
    (hl : ∀ n src r, l ≠ .fin0 n src :: r) :
    BlockI { s with th := setTh s.th t l } B := by
  refine ⟨hI.main, hI.child, ?_, hI.fresh, ?_⟩
  · intro u f hf hu n hn hB
    by_cases e : u = t
    · subst e
      have hf : f ∈ setTh s.th u l u := hf
      rw [setTh_self] at hf
      obtain ⟨h, h1, h2⟩ := ho f hf n hn
      exact hI.own u h h1 hu n h2 hB
    · have hf : f ∈ setTh s.th t l u := hf
      rw [setTh_ne _ _ e] at hf
      exact hI.own u f hf hu n hn hB
  · intro u n src r h hs
    have h : setTh s.th t l u = .fin0 n src :: r := h
    by_cases e : u = t
    · subst e
      rw [setTh_self] at h
      exact absurd h (hl n src r)
    · rw [setTh_ne _ _ e] at h
      exact hI.fin u n src r h hs

theorem blockI_fork {s : S} {B : Tid → Bool} (hr : ReachA Clean s) (hI : BlockI s B) {t : Tid}
    {f x : Frame} {rest l : List Frame} (ht : s.th t = f :: rest) (hres : f.resetting = false)
    (hA : t = mainOf s.g.tr ∨ B t = false) (real : Bool) (hx : ∀ n src, x ≠ .fin0 n src) :
    BlockI { g := s.g.emit t (.forked real), th := setTh (fun _ => []) t (x :: l) } B := by
  have hne : s.th t ≠ [] := by rw [ht]; simp
  have key : ∀ u f, f ∈ setTh (fun _ => []) t (x :: l) u → u = t := by
    intro u f hf
    by_cases e : u = t
    · exact e
    · rw [setTh_ne _ _ e] at hf; cases hf
  refine ⟨?_, ?_, ?_, hI.fresh, ?_⟩
  · intro (hB : B t = true)
    rcases hA with e | e
    · subst e; exact hI.main hB
    · rw [e] at hB; cases hB
  · intro _ (hB : B t = true) n (hn : getTn s.g t = some n)
    rcases hA with e | e
    · rcases getTn_mine hr (not_born hr ht hres) hne hn with h | h
      · exact h.1
      · exact absurd e h.2.1
    · rw [e] at hB; cases hB
  · intro u f hf hu
    exact absurd (key u f hf) hu
  · intro u n src r h _
    have hut := key u (.fin0 n src) (by
      have h : setTh (fun _ => []) t (x :: l) u = .fin0 n src :: r := h
      rw [h]; exact List.mem_cons_self)
    subst hut
    have h : setTh (fun _ => []) u (x :: l) u = .fin0 n src :: r := h
    rw [setTh_self] at h
    injection h with h
    exact absurd h (hx n src)

/-- The events of a step, and which frame calls fini-thread. -/
theorem fini_only {g g' : G} {t : Tid} {ok : Bool} {v : Nat} {f : Frame} {nx : Next}
    {sp : Option Frame} (h : fstep g t ok v f = some (g', nx, sp)) :
    ∃ es : List Ev, g'.tr = es.map (fun e => (t, e)) ++ g.tr ∧
      ∀ k d src, Ev.finiThread k d src ∈ es → ∃ n src, f = .fin0 n src := by
  cases f <;> fstep_cases h <;>
    first
    | exact ⟨[], rfl, by simp⟩
    | exact ⟨[_], rfl, by simp⟩
    | exact ⟨[_, _], rfl, by simp⟩
    | exact ⟨[_], rfl, fun _ _ _ _ => ⟨_, _, rfl⟩⟩
    | exact ⟨[_], congrArg _ (resetList_tr g t), by simp⟩

theorem shoot_only {g g' : G} {t : Tid} {ok : Bool} {v : Nat} {f : Frame} {nx : Next}
    {sp : Option Frame} (h : fstep g t ok v f = some (g', nx, sp)) :
    ∃ es : List Ev, g'.tr = es.map (fun e => (t, e)) ++ g.tr ∧ (.shootdown ∈ es → f = .sd2) := by
  cases f <;> fstep_cases h <;>
    first
    | exact ⟨[], rfl, by simp⟩
    | exact ⟨[_], rfl, by simp⟩
    | exact ⟨[_, _], rfl, by simp⟩
    | exact ⟨[_], congrArg _ (resetList_tr g t), by simp⟩

/-- monitor_in_exit_cleanup, once set, stays set. -/
theorem inExit_iff {s : S} (hs : Reach s) :
    s.g.inExit = true ↔ ∃ u, (u, .shootdown) ∈ s.g.tr := by
  refine glob_inv (A := fun _ _ => True)
    (GI := fun g => g.inExit = true ↔ ∃ u, (u, Ev.shootdown) ∈ g.tr) (by simp) ?_
    (fun _ h => h) ?_ hs
  · intro s t f rest ok v g' nx sp hr hA ht hG h
    by_cases e : f = .sd2
    · subst e; fstep_cases h; simp [G.emit]
    · have hx : g'.inExit = s.g.inExit := by
        cases f <;> first
          | exact absurd rfl e
          | (fstep_cases h <;> first | rfl | exact resetList_inExit _ _)
      obtain ⟨es, h1, h2⟩ := shoot_only h
      rw [hx, hG, h1]
      constructor
      · rintro ⟨u, hu⟩; exact ⟨u, List.mem_append_right _ hu⟩
      · rintro ⟨u, hu⟩
        rcases List.mem_append.1 hu with hu | hu
        · obtain ⟨x, hx1, hx2⟩ := List.mem_map.1 hu
          injection hx2 with _ hx2; subst hx2
          exact absurd (h2 hx1) e
        · exact ⟨u, hu⟩
  · intro s t real hr h
    simpa [G.emit] using h

theorem api_thr (a : Api) : ∀ x ∈ a.frames, x.thr = none := by
  cases a
  case exec b => cases b <;> simp [Api.frames, Frame.thr]
  all_goals simp [Api.frames, Frame.thr]

theorem block_inv {s : S} {B : Tid → Bool} (hs : ReachK Blocking s B) : BlockI s B := by
  induction hs with
  | init =>
    refine ⟨fun h => (by cases h), fun _ h => (by cases h), fun _ _ _ _ _ _ h => (by cases h),
      fun _ _ => rfl, fun _ _ _ _ _ _ => rfl⟩
  | @next s s' B l hr hA hn ih =>
    have hr := hr.reach (A' := Clean) And.left
    have hm := move_of_next hn
    cases hm with
    | @go t f rest ok v r hd ht hf =>
      obtain ⟨g', nx, sp⟩ := r
      exact blockI_go hr ih ht hf hA
    | @call t f rest a hd ht hf =>
      refine blockI_push ih ?_ ?_
      · intro x hx n hn
        rcases List.mem_append.1 hx with hx | hx
        · rw [api_thr a x hx] at hn; cases hn
        · exact ⟨x, by rw [ht]; exact hx, hn⟩
      · intro n src r e
        cases a
        case exec b => cases b <;> cases e
        all_goals cases e
    | @unwind t f rest hd ht hf =>
      refine blockI_push ih ?_ ?_
      · intro x hx n hn
        rcases unwound_cases (f :: rest) with e | ⟨a, m, ha, ham, e⟩
        · rw [e, List.mem_singleton] at hx; subst hx; cases hn
        · rw [e] at hx
          rcases List.mem_cons.1 hx with hx | hx
          · subst hx
            injection hn with hn; subst hn
            exact ⟨a, by rw [ht]; exact ha, (thr_of_armed ham).1⟩
          · rw [List.mem_singleton] at hx; subst hx; cases hn
      · intro n src r h
        rcases unwound_cases (f :: rest) with e | ⟨_, _, _, _, e⟩ <;> rw [e] at h <;> cases h
    | @deliver t f rest hd ht hon hh =>
      refine blockI_push ih ?_ (fun _ _ _ e => by cases e)
      intro x hx n hn
      rcases List.mem_cons.1 hx with hx | hx
      · subst hx; cases hn
      · exact ⟨x, by rw [ht]; exact hx, hn⟩
    | @interrupt t f rest hd ht =>
      refine blockI_push ih ?_ (fun _ _ _ e => by cases e)
      intro x hx n hn
      rcases List.mem_cons.1 hx with hx | hx
      · subst hx; cases hn
      · exact ⟨x, by rw [ht]; exact hx, hn⟩
    | fork hd ht => exact blockI_fork hr ih ht rfl hA.2 _ (by simp)
    | realFork hd ht => exact blockI_fork hr ih ht rfl hA.2 _ (by simp)

end Libmonitor.Proc
