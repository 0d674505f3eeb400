import Verif.Proc.Info
import Verif.Proc.SpecRepeat
/-!
# Who comes through the exit procedure again
-/

namespace Libmonitor.Proc

def delivers (u : Tid) (tr : Hist) : Prop :=
  (∃ how, (u, Ev.beginExit how) ∈ tr) ∨ inheritsExit u tr

theorem delivers_app {u : Tid} {tr : Hist} (h : delivers u tr) (es : Hist) :
    delivers u (es ++ tr) := by
  rcases h with ⟨how, h⟩ | ⟨a, b, c, h1, h2⟩
  · exact Or.inl ⟨how, List.mem_append_right _ h⟩
  · exact Or.inr ⟨es ++ a, b, c, by rw [h1, List.append_assoc], h2⟩

theorem delivers_step {g g' : G} {t : Tid} {ok : Bool} {v : Nat} {f : Frame} {nx : Next}
    {sp : Option Frame} (h : fstep g t ok v f = some (g', nx, sp)) {u : Tid}
    (hd : delivers u g.tr) : delivers u g'.tr := by
  obtain ⟨es, e, _⟩ := fstep_forked h
  rw [e]; exact delivers_app hd _

/-- What sets the mark of the thread that delivers the exit callbacks. -/
theorem win_step {g g' : G} {t : Tid} {ok : Bool} {v : Nat} {f : Frame} {nx : Next}
    {sp : Option Frame} (h : fstep g t ok v f = some (g', nx, sp)) {n : NodeId}
    (hw' : (g'.nodes n).exitWin = true) :
    (g.nodes n).exitWin = true ∨
    ((∃ how, f = .ep2 how (some n)) ∧ ∃ how, (t, Ev.beginExit how) ∈ g'.tr) ∨
    (n = .main ∧ f.resetting = true) := by
  by_cases hw : writes g t ok f = some n
  · cases f <;> first | (cases hw; done) | skip
    all_goals fstep_cases h
    all_goals first
      | exact Or.inl hw'
      | (simp only [writes, Option.some.injEq] at hw; subst hw
         first
         | (left; simpa [G.emit, G.upd, listInit] using hw'; done)
         | exact Or.inr (Or.inl ⟨⟨_, rfl⟩, _, List.mem_cons_self⟩)
         | exact Or.inr (Or.inr ⟨rfl, rfl⟩))
      | skip
    all_goals first
      | (left; simp only [G.emit, G.upd] at hw'; split at hw' <;> exact hw'; done)
      | (simp [G.emit, G.upd] at hw'; done)
      | skip
    rename_i a ha
    simp only [writes, ha, Option.map_some, Option.some.injEq] at hw
    simp [G.upd, hw] at hw'
  · left; rw [node_keep h hw] at hw'; exact hw'

theorem newWin_inv {s : S} (hs : ReachA Clean s) {u : Tid} {f : Frame} (hf : f ∈ s.th u)
    {n : NodeId} (hn : fresh s.g u f n) : (s.g.nodes n).exitWin = false := by
  refine (frames_invA (A := Clean) (GI := fun _ => True)
    (FI := fun g u f => ∀ n, fresh g u f n → (g.nodes n).exitWin = false) trivial ?_ ?_
    (fun _ h => h) (fun _ _ _ h => h) ?_ ?_ ?_ ?_ hs).2 u f hf n hn
  · rintro n (h | ⟨_, h⟩) <;> cases h
  · intro s t f rest ok v g' nx sp hr hA ht _ hF h
    have hft : f ∈ s.th t := by rw [ht]; exact List.mem_cons_self
    have hmo := mainOf_fstep h
    have hfr : ∀ {u h' n}, fresh g' u h' n → fresh s.g u h' n := by
      intro u h' n hx
      unfold fresh at hx ⊢
      rw [hmo] at hx; exact hx
    have hne : s.th t ≠ [] := by rw [ht]; simp
    have hold : ∀ u h', h' ∈ s.th u → (u = t → h' ∈ rest) → ∀ n, fresh g' u h' n →
        (g'.nodes n).exitWin = false := by
      intro u h' hm hrest n hx
      have hx := hfr hx
      have h0 := hF u h' hm n hx
      have hc := fresh_claims hx
      have hn := claims_ne_main hr hm (hc.imp_right And.right)
      apply Classical.byContradiction
      intro hc
      have hc : (g'.nodes n).exitWin = true := by simpa using hc
      rcases win_step h hc with k | ⟨⟨how, k⟩, _⟩ | ⟨k, _⟩
      · rw [h0] at k; cases k
      · subst k
        exact fresh_mine hr hm hx hft (by simp) (held_inv hr hft rfl)
      · exact hn k
    refine ⟨trivial, hold, ?_, ?_, ?_, ?_⟩
    · intro e n hx
      subst e
      exfalso
      cases f <;> fstep_cases h <;> rcases hx with hx | ⟨_, hx⟩ <;> cases hx
    · intro l e h' hm n hx
      subst e
      have hx := hfr hx
      have h0 := hF t f hft
      clear hold hF ht hft
      cases f <;> fstep_cases h <;>
        simp only [List.mem_cons, List.not_mem_nil, or_false] at hm <;>
        (try (rcases hm with hm | hm)) <;> (try subst hm) <;> rcases hx with hx | ⟨hx1, hx⟩ <;> first
        | (cases hm; done)
        | (cases hx; done)
        | (injection hx with hx; subst hx; simp [G.upd]; done)
        | (injection hx with hx; subst hx
           have := h0 _ (Or.inl rfl)
           simpa [G.upd] using this)
        | skip
    · intro h' e n hx
      subst e
      have h0 := hF t f hft
      clear hold hF ht
      cases f <;> fstep_cases h <;> rcases hx with hx | ⟨_, hx⟩ <;> cases hx
      exact h0 _ (Or.inl rfl)
    · intro _ h' hm n hx
      exfalso
      rcases unwound_cases rest with e | ⟨_, m, _, _, e⟩ <;> rw [e] at hm <;> simp at hm <;>
        (try (rcases hm with hm | hm)) <;> (try subst hm) <;> rcases hx with hx | ⟨_, hx⟩ <;> cases hx
  · intro s t i h _ _ _ _ _ _ _ hp _ n hx
    exfalso
    rcases hx with hx | ⟨_, hx⟩
    · cases h <;> first | (cases hx; done) | (simp [Frame.pushable] at hp; done)
    · subst hx; simp [Frame.pushable] at hp
  · intro s t _ _ _ _ _ h' hm n hx
    exfalso
    rcases unwound_cases (s.th t) with e | ⟨_, m, _, _, e⟩ <;> rw [e] at hm <;> simp at hm <;>
      (try (rcases hm with hm | hm)) <;> (try subst hm) <;> rcases hx with hx | ⟨_, hx⟩ <;> cases hx
  · intro s t c d rest hr hA ht _ _
    refine ⟨trivial, fun h hm n hx => ?_⟩
    rcases hx with hx | ⟨hx, _⟩
    · simp only [List.mem_cons] at hm
      rcases hm with hm | hm | hm
      · subst hm; cases hx
      · subst hm; cases hx
      · have := hA h (by rw [ht]; exact List.mem_cons_of_mem _ hm)
        cases h <;> first | (cases hx; done) | (cases this; done)
    · exact absurd rfl hx
  · intro s t rest hr hA ht _ _
    refine ⟨trivial, fun h hm n hx => ?_⟩
    rcases hx with hx | ⟨hx, _⟩
    · simp only [List.mem_cons] at hm
      rcases hm with hm | hm
      · subst hm; cases hx
      · have := hA h (by rw [ht]; exact List.mem_cons_of_mem _ hm)
        cases h <;> first | (cases hx; done) | (cases this; done)
    · exact absurd rfl hx

/-- A thread whose own record has the mark delivers the callbacks. -/
def WinF (g : G) (u : Tid) (f : Frame) : Prop :=
  (∀ n, Mine g u n → (f = .tdtor → n = .main) → born g.tr = false →
    (g.nodes n).exitWin = true → delivers u g.tr) ∧
  (∀ how, f = .epDone how .again → delivers u g.tr)

/-- ... and in a child before the reset of the thread list. -/
def WinG (g : G) : Prop :=
  (∀ n, (g.nodes n).exitWin = true → ∃ w how, (w, Ev.beginExit how) ∈ g.tr) ∧
  (born g.tr = true →
    (if g.hasUsed then resetMain g (mainOf g.tr) else g.main).exitWin = true →
      delivers (mainOf g.tr) g.tr)

theorem win_fork {s : S} (hr : ReachA Clean s) {t : Tid} {f : Frame} {rest : List Frame}
    (ht : s.th t = f :: rest) (hf : f ≠ .tdtor) (hres : f.resetting = false) {b : Bool}
    (hG : WinG s.g) (hF : WinF s.g t f) : WinG (s.g.emit t (.forked b)) := by
  refine ⟨fun n hn => ?_, fun _ hw => ?_⟩
  · obtain ⟨w, how, h⟩ := hG.1 n hn
    exact ⟨w, how, List.mem_cons_of_mem _ h⟩
  have hmo : mainOf (s.g.emit t (.forked b)).tr = t := rfl
  rw [hmo] at hw ⊢
  have hne : s.th t ≠ [] := by rw [ht]; simp
  have hb := not_born hr ht hres
  have hg : getTn (s.g.emit t (.forked b)) t = getTn s.g t := rfl
  have hw : (if s.g.hasUsed then resetMain (s.g.emit t (.forked b)) t else s.g.main).exitWin =
    true := hw
  cases hn : getTn s.g t with
  | none =>
    have hmw : (s.g.nodes .main).exitWin = true := by
      simp only [resetMain, hg, hn] at hw
      split at hw <;> exact hw
    refine Or.inr ⟨[], b, s.g.tr, rfl, fun hreg => ?_, hG.1 _ hmw⟩
    obtain ⟨m, hm⟩ := reg_getTn hr ht hf hres hreg
    rw [hn] at hm; cases hm
  | some n =>
    have hm := getTn_mine hr hb hne hn
    by_cases e : n = .main
    · subst e
      have hmw : (s.g.nodes .main).exitWin = true := by
        simp only [resetMain, hg, hn, if_true] at hw
        split at hw <;> exact hw
      exact delivers_app (hF.1 _ hm (fun e => absurd e hf) hb hmw) [(t, .forked b)]
    · have hu : t ≠ mainOf s.g.tr := by
        rcases hm with ⟨h, _⟩ | ⟨_, h, _⟩
        · exact absurd h e
        · exact h
      have hus : s.g.hasUsed = true :=
        (born_of_live hr (by rw [ht]; exact List.mem_cons_self) hu).1
      simp only [hus, if_true, resetMain, hg, hn, if_neg e] at hw
      cases hw

theorem win_keep {s : S} (hr : ReachA Clean s) {t : Tid} {f : Frame} {rest : List Frame}
    {ok : Bool} {v : Nat} {g' : G} {nx : Next} {sp : Option Frame} (ht : s.th t = f :: rest)
    (hf : fstep s.g t ok v f = some (g', nx, sp)) (hF : ∀ u h, h ∈ s.th u → WinF s.g u h)
    {u : Tid} {h : Frame} (hh : h ∈ s.th u) {n : NodeId} (hbt : u = t → f ≠ .bt0 n)
    (hm : Mine g' u n) (htd : h = .tdtor → n = .main) (hb : born s.g.tr = false)
    (hw : (g'.nodes n).exitWin = true) : delivers u g'.tr := by
  have hft : f ∈ s.th t := by rw [ht]; exact List.mem_cons_self
  have hm0 : Mine s.g u n := by
    rcases mine_back hf hm with h | ⟨h1, h2⟩
    · exact h
    · exact absurd h1 (hbt h2)
  rcases win_step hf hw with k | ⟨⟨how, k⟩, how', hev⟩ | ⟨_, k⟩
  · exact delivers_step hf ((hF u h hh).1 n hm0 htd hb k)
  · subst k
    have := mine_inj hr hh htd hm0 hft (by simp) (held_inv hr hft rfl)
    subst this
    exact Or.inl ⟨how', hev⟩
  · have := not_resetting hr hft hb
    rw [k] at this; cases this

theorem winS_inv {s : S} (hs : ReachA Clean s) :
    WinG s.g ∧ ∀ u h, h ∈ s.th u → WinF s.g u h := by
  have hunw : ∀ {s : S} {t : Tid}, ReachA Clean s → (∀ u h, h ∈ s.th u → WinF s.g u h) →
      s.th t ≠ [] → ∀ {l : List Frame}, (∀ h ∈ l, h ∈ s.th t) →
      ∀ h ∈ unwound l, WinF s.g t h := by
    intro s t hr hF hne l hl h hm
    rcases unwound_cases l with e | ⟨f', m, h1, h4, e⟩
    · rw [e, List.mem_singleton] at hm; subst hm
      obtain ⟨f0, r0, e0⟩ := List.exists_cons_of_ne_nil hne
      refine ⟨fun n h2 h3 hb => ?_, fun _ e => by cases e⟩
      exact (hF t f0 (by rw [e0]; exact List.mem_cons_self)).1 n h2 (fun _ => h3 rfl) hb
    · have hf' : f' ≠ .tdtor := by intro e; subst e; cases h4
      refine ⟨fun n h2 h3 hb => ?_, fun _ e' => ?_⟩
      · exact (hF t f' (hl _ h1)).1 n h2 (fun e => absurd e hf') hb
      · subst e'; rw [e] at hm; simp at hm
  refine frames_invA (A := Clean) (GI := WinG) (FI := WinF) ⟨fun n h => ?_, fun h => by cases h⟩
    ⟨fun n _ _ _ hw => ?_, fun _ e => by cases e⟩ ?_
    (fun _ h => h) (fun _ _ _ h => h) ?_ ?_ ?_ ?_ hs
  · cases n <;> cases h
  · cases n <;> cases hw
  · intro s t f rest ok v g' nx sp hr hA ht hG hF h
    have hft : f ∈ s.th t := by rw [ht]; exact List.mem_cons_self
    have hmo := mainOf_fstep h
    have hmem := mem_of_fstep h
    have hsh := shape_inv hr t
    rw [ht] at hsh
    have hrm : ((resetList s.g t).nodes .main).exitWin =
        (if s.g.hasUsed then resetMain s.g t else s.g.main).exitWin := by
      unfold resetList
      split <;> rfl
    have hGm : ∀ {g1 : G} {e : Ev}, g1.tr = (t, e) :: s.g.tr →
        (∀ w how, (w, Ev.beginExit how) ∈ s.g.tr → (w, Ev.beginExit how) ∈ g1.tr) := by
      intro g1 e h1 w how hm
      rw [h1]; exact List.mem_cons_of_mem _ hm
    have hG1 : ∀ n, (g'.nodes n).exitWin = true → ∃ w how, (w, Ev.beginExit how) ∈ g'.tr := by
      intro n hw
      rcases win_step h hw with k | ⟨_, how, k⟩ | ⟨k1, k2⟩
      · obtain ⟨w, how, k⟩ := hG.1 n k
        exact ⟨w, how, hmem _ k⟩
      · exact ⟨t, how, k⟩
      · subst k1
        have hm1 : (s.g.nodes .main).exitWin = true := by
          have hkey : ((resetList s.g t).nodes .main).exitWin = true →
              (s.g.nodes .main).exitWin = true := by
            intro h1
            rw [hrm] at h1
            split at h1
            · unfold resetMain at h1
              split at h1
              · exact h1
              · split at h1
                · exact h1
                · cases h1
            · exact h1
          clear hrm hF hG hGm hmem hsh hft ht hA
          cases f <;> first | (cases k2; done) | skip
          · fstep_cases h <;> exact hw
          · fstep_cases h; exact hkey hw
          · fstep_cases h; exact hkey hw
        obtain ⟨w, how, k⟩ := hG.1 _ hm1
        exact ⟨w, how, hmem _ k⟩
    -- the reset in a child
    have hbornF : born s.g.tr = true → ∀ u n, Mine g' u n → born g'.tr = false →
        u = mainOf s.g.tr → (g'.nodes n).exitWin = true → delivers u g'.tr := by
      intro hb u n hm hb' hu hw
      obtain ⟨k1, k2, k3, k4⟩ := birth_step hr ht hb
      subst hu
      have hn : n = .main := by
        rcases hm with ⟨e, _⟩ | ⟨_, e, _⟩
        · exact e
        · rw [hmo] at e; exact absurd rfl e
      subst hn
      refine delivers_step h (hG.2 hb ?_)
      rw [← k1, ← hrm]
      clear hm hF hG hsh hft ht hA hG1 hGm hmem
      cases f <;> first | (cases k2; done) | skip
      · fstep_cases h
        · rw [hb] at hb'; cases hb'
        · contradiction
        · contradiction
      · fstep_cases h; exact hw
      · fstep_cases h; exact hw
    have hold : ∀ u h', h' ∈ s.th u → (u = t → ∀ n, f ≠ .bt0 n) →
        ∀ n, Mine g' u n → (h' = .tdtor → n = .main) → born g'.tr = false →
        (g'.nodes n).exitWin = true → delivers u g'.tr := by
      intro u h' hm h2 n hmi htd hb' hw
      cases hb : born s.g.tr with
      | true =>
        obtain ⟨k1, _, _, k4⟩ := birth_step hr ht hb
        have hu : u = t := by
          apply Classical.byContradiction
          intro hc
          rw [k4 u hc] at hm; cases hm
        exact hbornF hb u n hmi hb' (by rw [hu]; exact k1) hw
      | false => exact win_keep hr ht h hF hm (fun e => h2 e n) hmi htd hb hw
    have hkeep : ∀ u h', h' ∈ s.th u → ∀ how, h' = .epDone how .again → delivers u g'.tr :=
      fun u h' hm how e => delivers_step h ((hF u h' hm).2 how e)
    refine ⟨⟨hG1, ?_⟩, ?_, ?_, ?_, ?_, ?_⟩
    · intro hb' hw
      cases hb : born s.g.tr with
      | false =>
        exfalso
        obtain ⟨es, e1, e2⟩ := fstep_forked h
        rw [e1] at hb'
        cases es with
        | nil => rw [List.map_nil, List.nil_append, hb] at hb'; cases hb'
        | cons x es =>
          have := e2 x List.mem_cons_self
          simp only [List.map_cons, List.cons_append, born] at hb'
          rw [this] at hb'; cases hb'
      | true =>
        have k2 := (birth_step hr ht hb).2.1
        clear hold hbornF hF hsh hft ht hA hkeep hG1 hGm hmem hrm
        cases f <;> first | (cases k2; done) | skip
        · fstep_cases h
          · exact hG.2 hb hw
          · contradiction
          · contradiction
        · fstep_cases h
          simp only [G.emit, resetList_tr] at hb'
          cases hb'
        · fstep_cases h
          simp only [G.emit, resetList_tr] at hb'
          cases hb'
    · intro u h' hm hrest
      refine ⟨hold u h' hm ?_, hkeep u h' hm⟩
      intro eu n e
      have hr' := hrest eu
      subst e
      rw [hsh.1 rfl] at hr'; cases hr'
    · intro e; subst e
      refine ⟨hold t f hft ?_, hkeep t f hft⟩
      intro _ n e; subst e; fstep_cases h
    · intro l e h' hl
      subst e
      refine ⟨fun n hm htd hb' hw => ?_, fun how e => ?_⟩
      · by_cases eb : ∃ m, f = .bt0 m
        · exfalso
          obtain ⟨m, e⟩ := eb
          subst e
          have hne := thr_ne_main hr hft (n := m) rfl rfl
          have h1 := newWin_inv hr hft (Or.inr ⟨hne, rfl⟩)
          fstep_cases h
          have hn : n = m := by
            rcases hm with ⟨_, e⟩ | ⟨_, _, e⟩
            · exact absurd e hne
            · simpa using e.symm
          subst hn
          simp [G.upd, h1] at hw
        · have hmf : f = .tdtor → n = .main := by
            intro e; subst e
            by_cases hn : n = .main
            · exact hn
            · exfalso
              have hr0 : rest = [] := hsh.1 rfl
              subst hr0
              have hm0 : Mine s.g t n := by
                rcases mine_back h hm with h | ⟨h, _⟩
                · exact h
                · cases h
              have hok := hA.1 (slot_gone ht hm0 hn)
              have := tdtor_new h (by intro e; subst e; cases hl)
              rw [hok] at this; cases this
          exact hold t f hft (fun _ m e => eb ⟨m, e⟩) n hm hmf hb' hw
      · subst e
        have hb := hsh
        clear hb hold hbornF hkeep hG1 hGm hmem hrm hsh
        have key : ∀ n how, f = .ep1 how (some n) → (s.g.nodes n).exitWin = true →
            delivers t s.g.tr := by
          intro n how e hw
          subst e
          exact (hF t _ hft).1 n (held_inv hr hft rfl) (fun e => by cases e)
            (not_born hr ht rfl) hw
        clear hF hG ht hft hA
        cases f <;> fstep_cases h <;>
          simp only [List.mem_cons, List.not_mem_nil, or_false, reduceCtorEq] at hl
        all_goals first
          | (cases hl; done)
          | exact key _ _ rfl (by assumption)
    · intro h' e
      subst e
      refine ⟨fun n hm _ _ _ => ?_, fun _ e => ?_⟩
      · exfalso
        have h1 := (base_inv hr).1.1
        have h2 := (tsd_inv hr).1.1 s.g.nextTid (Nat.le_refl _)
        have hm0 : Mine s.g s.g.nextTid n := by
          rcases mine_back h hm with h | ⟨e, _⟩
          · exact h
          · subst e; fstep_cases h
        rcases hm0 with ⟨_, e⟩ | ⟨_, _, e⟩
        · rw [← e] at h1; omega
        · rw [h2] at e; cases e
      · subst e
        exfalso
        clear hold hbornF hkeep hG1 hGm hmem hrm hsh hF hG ht hft hA
        cases f <;> fstep_cases h
    · intro e; subst e
      have e := unwind_kind h
      subst e
      exact hunw hr hF (by rw [ht]; simp) (fun h hm => by rw [ht]; exact List.mem_cons_of_mem _ hm)
  · intro s t i h hr hA _ hne hF hu hgo hp htd
    refine ⟨fun n hm _ hb hw => ?_, fun _ e => by subst e; simp [Frame.pushable] at hp⟩
    obtain ⟨f0, r0, e0⟩ := List.exists_cons_of_ne_nil hne
    have hf0 : f0 ∈ s.th t := by rw [e0]; exact List.mem_cons_self
    refine (hF t f0 hf0).1 n hm (fun hd => ?_) hb hw
    apply Classical.byContradiction
    intro hn
    subst hd
    have hsh := shape_inv hr t
    rw [e0] at hsh
    have hr0 : r0 = [] := hsh.1 rfl
    subst hr0
    have hg := slot_gone e0 hm hn
    cases i with
    | go ok v => exact hgo ok v rfl
    | unwind => exact hu rfl
    | call a => rw [show gone s t = false from hA] at hg; cases hg
    | deliver => rw [hA.2] at hg; cases hg
    | interrupt => rw [hA.2] at hg; cases hg
  · intro s t hr hA _ hne hF
    exact hunw hr hF hne (fun h hm => hm)
  · intro s t c d rest hr hA ht hG hF
    refine ⟨win_fork hr ht (by simp) rfl hG (hF t _ (by rw [ht]; exact List.mem_cons_self)), ?_⟩
    intro h hm
    refine ⟨fun n _ _ hb => (by cases hb), fun how e => ?_⟩
    simp only [List.mem_cons] at hm
    subst e
    have hm : Frame.epDone how .again ∈ rest := by
      rcases hm with hm | hm | hm
      · cases hm
      · cases hm
      · exact hm
    exact delivers_app ((hF t _ (by rw [ht]; exact List.mem_cons_of_mem _ hm)).2 how rfl) [_]
  · intro s t rest hr hA ht hG hF
    refine ⟨win_fork hr ht (by simp) rfl hG (hF t _ (by rw [ht]; exact List.mem_cons_self)), ?_⟩
    intro h hm
    refine ⟨fun n _ _ hb => (by cases hb), fun how e => ?_⟩
    simp only [List.mem_cons] at hm
    subst e
    have hm : Frame.epDone how .again ∈ rest := by
      rcases hm with hm | hm
      · cases hm
      · exact hm
    exact delivers_app ((hF t _ (by rw [ht]; exact List.mem_cons_of_mem _ hm)).2 how rfl) [_]

theorem repeat_inv {s : S} (hs : ReachA Clean s) : Always repeatSpec s.g.tr := by
  refine glob_inv (A := Clean) (GI := fun g => Always repeatSpec g.tr) trivial ?_ (fun _ h => h)
    (fun _ h => ⟨fun _ e => (by cases e), h⟩) hs
  intro s t f rest ok v g' nx sp hr hA ht hG h
  have skip : ∀ {e : Ev} {old : Hist}, (∀ how, e ≠ .resume how .again) → Always repeatSpec old →
      Always repeatSpec ((t, e) :: old) := fun h1 h2 => ⟨fun r e => absurd e (h1 r), h2⟩
  by_cases hq : ∃ how, f = .epDone how .again
  · obtain ⟨how, e⟩ := hq
    subst e
    have h0 := ((winS_inv hr).2 t _ (by rw [ht]; exact List.mem_cons_self)).2 how rfl
    fstep_cases h
    exact ⟨fun _ _ => h0, hG⟩
  · have hq : ∀ how w, f = .epDone how w → w ≠ .again := fun how w e1 e2 =>
      hq ⟨how, by rw [e1, e2]⟩
    cases f <;> fstep_cases h <;> first
      | exact hG
      | (refine skip ?_ hG; simp; done)
      | (refine skip ?_ (skip ?_ hG) <;> simp; done)
      | (simp only [G.emit, G.upd, resetList_tr]; refine skip ?_ hG; simp; done)
      | (refine skip ?_ hG
         intro how e
         injection e with _ e
         exact hq _ _ rfl e)

theorem always_mem {P : Hist → Tid → Ev → Prop} {tr : Hist} (h : Always P tr) {x : Tid × Ev}
    (hx : x ∈ tr) : ∃ a b, tr = a ++ x :: b ∧ P b x.1 x.2 := by
  induction tr with
  | nil => cases hx
  | cons y tr ih =>
    rcases List.mem_cons.1 hx with e | hx
    · subst e; exact ⟨[], tr, rfl, h.1⟩
    · obtain ⟨a, b, h1, h2⟩ := ih h.2 hx
      exact ⟨y :: a, b, by rw [h1]; rfl, h2⟩

end Libmonitor.Proc
