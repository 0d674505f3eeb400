import Verif.Proc.Scan
import Verif.Proc.SpecShoot
/-!
# All threads are finished before fini-process: invariant
-/

namespace Libmonitor.Proc

theorem occurs_unique {p : Ev → Bool} {tr : Hist} (h : occurs p tr ≤ 1) {u w : Tid} {e e' : Ev}
    (h1 : (u, e) ∈ tr) (h2 : (w, e') ∈ tr) (hp : p e = true) (hp' : p e' = true) : u = w := by
  induction tr with
  | nil => cases h1
  | cons x tr ih =>
    rw [occurs_cons] at h
    rcases List.mem_cons.1 h1 with e1 | e1 <;> rcases List.mem_cons.1 h2 with e2 | e2
    · rw [← e1] at e2; injection e2 with e2 _; exact e2.symm
    · have := occurs_pos e2 hp'
      subst e1
      simp only [hp, if_true] at h; omega
    · have := occurs_pos e1 hp
      subst e2
      simp only [hp', if_true] at h; omega
    · exact ih (by omega) e1 e2

/-- The frames of the exit cleanup. -/
def Frame.cleaning : Frame → Bool
  | .sd0 | .sd1 | .sd2 => true
  | f => f.shooting

/-- The frames of the thread that delivers the exit callbacks. -/
def Frame.exiting : Frame → Bool
  | .epBegin _ | .sd0 | .sd1 | .sd2 | .epFini0 _ => true
  | _ => false

/-- The exit cleanup and fini-process are due to the call that has called begin-process-exit. -/
theorem exiting_inv {A : S → Lbl → Prop} {s : S} (hs : ReachA A s) :
    (∀ u, (u, Ev.shootdown) ∈ s.g.tr → ∃ how, (u, Ev.beginExit how) ∈ s.g.tr) ∧
    ∀ u f, f ∈ s.th u → f.exiting = true → ∃ how, (u, Ev.beginExit how) ∈ s.g.tr := by
  refine frames_inv (A := A)
    (GI := fun g => ∀ u, (u, Ev.shootdown) ∈ g.tr → ∃ how, (u, Ev.beginExit how) ∈ g.tr)
    (FI := fun g u f => f.exiting = true → ∃ how, (u, Ev.beginExit how) ∈ g.tr)
    (fun _ h => by cases h) (fun h => by cases h)
    ?_ (fun _ h => h) (fun _ _ _ h => h) ?_ ?_ ?_ ?_
    (fun _ => ⟨fun h => (by cases h), fun h => (by cases h)⟩)
    (fun _ h => by cases h) hs
  · intro s t f rest ok v g' nx sp _ ht hG hF h
    have hmem := mem_of_fstep h
    have hf := hF t f (by rw [ht]; exact List.mem_cons_self)
    refine ⟨?_, fun u h' hi hs => ?_, ?_, ?_⟩
    · intro u hm
      have : (u, Ev.shootdown) ∈ s.g.tr ∨ (u = t ∧ f.exiting = true) := by
        obtain ⟨es, e1, _, e2⟩ := ev_step h
        rw [e1] at hm
        rcases List.mem_append.1 hm with hm | hm
        · right
          obtain ⟨e, k1, k2⟩ := List.mem_map.1 hm
          injection k2 with k2 k3
          subst k3
          refine ⟨k2.symm, ?_⟩
          by_cases hf2 : f = .sd2
          · rw [hf2]; rfl
          · exact absurd k1 (e2 hf2)
        · exact Or.inl hm
      rcases this with h1 | ⟨h1, h2⟩
      · obtain ⟨how, h1⟩ := hG u h1
        exact ⟨how, hmem _ h1⟩
      · obtain ⟨how, h3⟩ := hf h2
        subst h1
        exact ⟨how, hmem _ h3⟩
    · obtain ⟨how, h3⟩ := hi hs
      exact ⟨how, hmem _ h3⟩
    · intro l e h' hm hsh
      by_cases hfe : f.exiting = true
      · obtain ⟨how, h3⟩ := hf hfe
        exact ⟨how, hmem _ h3⟩
      · clear hF ht hf hG
        cases f <;> fstep_cases h <;> cases e <;>
          simp only [List.mem_cons, List.not_mem_nil, or_false] at hm <;>
          (try (rcases hm with hm | hm)) <;> (try subst hm) <;> first
          | (cases hsh; done)
          | (cases hm; done)
          | exact ⟨_, List.mem_cons_self⟩
          | exact absurd rfl hfe
    · intro h' e hsh
      clear hF ht hf hG
      cases f <;> fstep_cases h <;> cases e <;> cases hsh
  · intro g t h _ hp hsh
    cases h <;> first | (cases hsh; done) | (simp [Frame.pushable] at hp; done)
  · intro g t f n _ _ hsh
    cases hsh
  · intro g t real hG u hm
    rcases List.mem_cons.1 hm with hm | hm
    · injection hm with _ h1; cases h1
    · obtain ⟨how, h1⟩ := hG u hm
      exact ⟨how, List.mem_cons_of_mem _ h1⟩
  · intro g t real u h hF hs
    obtain ⟨how, h1⟩ := hF hs
    exact ⟨how, List.mem_cons_of_mem _ h1⟩

/-- The threads to wait for. -/
def Due (g : G) (w u : Tid) : Prop :=
  Early g w u ∨ ((w, Ev.shootdown) ∈ own g.tr ∧ w ≠ mainOf g.tr ∧ u = mainOf g.tr)

def DoneAll (g : G) (w : Tid) : Prop :=
  ∀ u, Due g w u → RetO g u ∨ GaveUp g w ∨
    (u = w ∧ ∃ k d src, (w, Ev.finiThread k d src) ∈ own g.tr)

theorem due_back {g g' : G} {t : Tid} {ok : Bool} {v : Nat} {f : Frame} {nx : Next}
    {sp : Option Frame} (h : fstep g t ok v f = some (g', nx, sp)) {w u : Tid}
    (hne : w = t → f ≠ .sd2) (hc : Due g' w u) : Due g w u := by
  rcases hc with hc | ⟨h1, h2, h3⟩
  · exact Or.inl (early_back h hne hc)
  · rw [mainOf_fstep h] at h2 h3
    rcases shoot_new h h1 with h1 | ⟨e1, e2⟩
    · exact Or.inr ⟨h1, h2, h3⟩
    · exact absurd e1 (hne e2)

theorem Due.cnd {g : G} {w u : Tid} (h : Due g w u) : Cnd g w := by
  rcases h with h | ⟨h1, h2, _⟩
  · exact Or.inl ⟨u, h⟩
  · exact Or.inr ⟨h1, h2⟩

theorem DoneAll.keep {g g' : G} {t : Tid} {ok : Bool} {v : Nat} {f : Frame} {nx : Next}
    {sp : Option Frame} (h : fstep g t ok v f = some (g', nx, sp)) {w : Tid}
    (hne : w = t → f ≠ .sd2) (hd : DoneAll g w) : DoneAll g' w := by
  intro u hu
  rcases hd u (due_back h hne hu) with h1 | h1 | ⟨h1, k, d, src, h2⟩
  · exact Or.inl (h1.mono h)
  · exact Or.inr (Or.inl (own_mem_fstep h _ h1))
  · exact Or.inr (Or.inr ⟨h1, k, d, src, own_mem_fstep h _ h2⟩)

/-- All but the exiting thread, at the end of the walk. -/
theorem due_others {s : S} (hr : ReachA Clean s) {w u : Tid} (hu : Due s.g w u) (hne : u ≠ w)
    (hd : GaveUp s.g w ∨ DoneL s.g w s.g.list) (hm : w ≠ mainOf s.g.tr → .main ∈ s.g.list) :
    RetO s.g u ∨ GaveUp s.g w := by
  rcases hd with hd | hd
  · exact Or.inr hd
  · left
    obtain ⟨_, _, _, hb⟩ := cnd_facts hr hu.cnd
    rcases hu with hu | ⟨h1, h2, h3⟩
    · obtain ⟨_, ⟨k, hk⟩, _⟩ := hu.mem
      rcases Classical.em (Ret s.g u) with h | h
      · exact ret_own hr hk h
      · obtain ⟨n, k1, k2, k3⟩ := ((listD_inv hr hb).2 u k hk).2 h
        exact hd.1 n k1 k2 u k3 hne hu
    · rw [h3]; exact hd.2 (hm h2) h2

/-- The end of the exit cleanup. -/
theorem cleaned {s : S} (hr : ReachA Clean s) {t : Tid} {f : Frame} {rest : List Frame}
    {ok : Bool} {v : Nat} {g' : G} {l : List Frame} {sp : Option Frame} (ht : s.th t = f :: rest)
    (h : fstep s.g t ok v f = some (g', .go l, sp)) (hf : f.cleaning = true)
    (hl : ∀ h' ∈ l, h'.cleaning = false) : DoneAll g' t := by
  have hft : f ∈ s.th t := by rw [ht]; exact List.mem_cons_self
  by_cases h2 : f = .sd2
  · subst h2
    fstep_cases h
    have := hl _ List.mem_cons_self
    cases this
  intro u hu
  have hu0 := due_back h (fun _ => h2) hu
  have hc := hu0.cnd
  obtain ⟨hw, _, _, hb⟩ := cnd_facts hr hc
  have hwalk := walk_inv hr hft hc
  have oth : u ≠ t → (GaveUp s.g t ∨ DoneL s.g t s.g.list) → (t ≠ mainOf s.g.tr → .main ∈ s.g.list) →
      RetO g' u ∨ GaveUp g' t ∨ (u = t ∧ ∃ k d src, (t, Ev.finiThread k d src) ∈ own g'.tr) := by
    intro h1 h2 h3
    rcases due_others hr hu0 h1 h2 h3 with h4 | h4
    · exact Or.inl (h4.mono h)
    · exact Or.inr (Or.inl (own_mem_fstep h _ h4))
  have selfCase : u = t → RetO s.g t ∨ ∃ n, n ∈ s.g.list ∧ n ≠ .main ∧ (s.g.nodes n).self = some t ∧
      ∃ k, (t, Ev.linked k) ∈ own s.g.tr := by
    intro e; subst e
    rcases hu0 with hu0 | ⟨_, h2, h3⟩
    · obtain ⟨_, ⟨k, hk⟩, _⟩ := hu0.mem
      rcases Classical.em (Ret s.g u) with h | h
      · exact Or.inl (ret_own hr hk h)
      · obtain ⟨n, k1, k2, k3⟩ := ((listD_inv hr hb).2 u k hk).2 h
        exact Or.inr ⟨n, k1, k2, k3, k, hk⟩
    · exact absurd h3 h2
  cases f <;> first | (cases hf; done) | skip
  case sd0 =>
    have h0 := (oneTok_holder (oneTok_shoot hr) ht rfl).1
    have := occurs_pos ((own_sublist _).subset hw) (p := Ev.isShootdown) rfl
    omega
  case sdMy my =>
    obtain ⟨k1, k2⟩ := hwalk.done my (Or.inr rfl)
    by_cases e : u = t
    · rcases selfCase e with h4 | ⟨n, h4, h5, h6, k, h7⟩
      · subst e; exact Or.inl (h4.mono h)
      · have hmy := k1 n h4 h5 h6
        subst hmy
        have hfin : (s.g.nodes n).finiS = true := by
          cases hx : (s.g.nodes n).finiS with
          | true => rfl
          | false =>
            exfalso
            simp only [fstep, hx, cont] at h
            injection h with h
            injection h with _ h
            injection h with h _
            injection h with h
            have := hl (.fin0 n .winner) (by rw [← h]; exact List.mem_cons_self)
            cases this
        obtain ⟨k', d, src, h8⟩ := ((listI_inv hr hb).1 n h4 h5 t h6).2.2 hfin
        exact Or.inr (Or.inr ⟨e, k', d, src, own_mem_fstep h _ ((own_thread hr).1.2 t k h7 _ h8)⟩)
    · exact oth e k2 (hwalk.main rfl (by simp))
  case finCb n src k =>
    have hs : src = .winner := by cases src <;> first | rfl | cases hf
    subst hs
    by_cases e : u = t
    · subst e
      left
      fstep_cases h <;> first
        | contradiction
        | exact ⟨_, by simp only [G.emit, own, Ev.isForked]; exact List.mem_cons_self⟩
    · exact oth e (hwalk.fin (Or.inr ⟨_, _, rfl⟩)) (hwalk.main rfl (by simp))
  all_goals
    exfalso
    fstep_cases h <;> first
      | contradiction
      | (have := hl _ List.mem_cons_self; cases this; done)
      | skip
  rename_i src
  have hs : src = .winner := by cases src <;> first | rfl | cases hf
  subst hs
  have := hl _ List.mem_cons_self
  cases this

theorem fini_new {g g' : G} {t : Tid} {ok : Bool} {v : Nat} {f : Frame} {nx : Next}
    {sp : Option Frame} (h : fstep g t ok v f = some (g', nx, sp)) (hf : ∀ how, f ≠ .epFini0 how) :
    ∃ es : List Ev, g'.tr = es.map (fun e => (t, e)) ++ g.tr ∧
      ∀ e ∈ es, ∀ how d, e ≠ .finiProcess how d := by
  obtain ⟨es, he⟩ := fstep_tr h
  refine ⟨es, he, fun e hm how d e1 => ?_⟩
  subst e1
  have h1 : occurs Ev.isFiniProcess g'.tr = occurs Ev.isFiniProcess g.tr := by
    cases f <;> fstep_cases h <;>
      first
      | rfl
      | (simp [listInit, G.emit, G.upd, resetList_tr, occurs_cons, Ev.isFiniProcess]; done)
      | exact absurd rfl (hf _)
  rw [he] at h1
  have h2 : occurs Ev.isFiniProcess (es.map (fun e => (t, e)) ++ g.tr) =
      occurs Ev.isFiniProcess (es.map (fun e => (t, e))) + occurs Ev.isFiniProcess g.tr := by
    simp [occurs]
  have h3 := occurs_pos (tr := es.map (fun e => (t, e))) (List.mem_map.2 ⟨_, hm, rfl⟩)
    (p := Ev.isFiniProcess) rfl
  omega

theorem always_skip {P : Hist → Tid → Ev → Prop} {t : Tid} {tr : Hist} (es : List Ev)
    (h : ∀ e ∈ es, ∀ old, P old t e) (ha : Always P tr) :
    Always P (es.map (fun e => (t, e)) ++ tr) := by
  induction es with
  | nil => exact ha
  | cons e es ih =>
    exact ⟨h e List.mem_cons_self _, ih fun e' he' => h e' (List.mem_cons_of_mem _ he')⟩

/-- When the exit cleanup is over, all are done. -/
def FinS (g : G) (w : Tid) (l : List Frame) : Prop :=
  ∀ a how b, l = a ++ .epFini0 how :: b → (∃ f ∈ a, f.cleaning = true) ∨ DoneAll g w

theorem fin_none {g : G} {w : Tid} {l : List Frame} (h : ∀ how, .epFini0 how ∉ l) : FinS g w l := by
  intro a how b e
  exact absurd (by rw [e]; simp) (h how)

theorem due_fork {g : G} {t w u : Tid} {b : Bool} : ¬ Due (g.emit t (.forked b)) w u := by
  rintro (h | h)
  · have h1 := h.mem.1
    simp [G.emit, own, Ev.isForked] at h1
  · have h1 := h.1
    simp [G.emit, own, Ev.isForked] at h1

theorem append_at {α : Type} {l rest a b : List α} {x : α} (h : l ++ rest = a ++ x :: b) :
    (∃ a', a = l ++ a' ∧ rest = a' ++ x :: b) ∨ ∃ c, l = a ++ x :: c := by
  rcases List.append_eq_append_iff.1 h with ⟨a', k1, k2⟩ | ⟨c, k1, k2⟩
  · exact Or.inl ⟨a', k1, k2⟩
  · cases c with
    | nil => exact Or.inl ⟨[], by simpa using k1.symm, by simpa using k2.symm⟩
    | cons c0 c =>
      injection k2 with k2 _
      exact Or.inr ⟨c, by rw [k1, k2]⟩

theorem begin_once {A : S → Lbl → Prop} {s : S} (hs : ReachA A s) :
    occurs Ev.isBeginExit s.g.tr ≤ 1 := by
  obtain ⟨h1, h2⟩ := oneTok_begin hs
  cases hc : s.g.cookie with
  | false => exact Nat.le_trans (Nat.le_of_eq (h1 hc).1) (Nat.zero_le _)
  | true => obtain ⟨w, _, h3⟩ := h2 hc; exact Nat.le_trans (Nat.le_add_left _ _) h3

theorem finished_inv {s : S} (hs : ReachA Clean s) :
    Always finishedSpec s.g.tr ∧ ∀ u, FinS s.g u (s.th u) := by
  have hfk : ∀ (g : G) (t u : Tid) (b : Bool) (l : List Frame), FinS (g.emit t (.forked b)) u l :=
    fun g t u b l a how b' _ => Or.inr fun x hx => absurd hx due_fork
  refine stack_invA (A := Clean) (GI := fun g => Always finishedSpec g.tr) (SI := FinS) trivial
    (fin_none (by simp)) (fun _ _ => fin_none (by simp)) ?_ (fun _ h => h) (fun _ _ _ h => h)
    ?_ ?_ ?_ ?_ hs
  · intro s t f rest ok v g' nx sp hr hA ht hG hS h
    have hft : f ∈ s.th t := by rw [ht]; exact List.mem_cons_self
    have hSt := hS t
    rw [ht] at hSt
    refine ⟨?_, fun u hu _ a how b e => ?_, fun e => ?_, fun e => ?_, fun l e => ?_, fun f0 e => ?_⟩
    · by_cases hf : ∃ how, f = .epFini0 how
      · obtain ⟨how, rfl⟩ := hf
        have hd : DoneAll s.g t := by
          rcases hSt [] how rest rfl with ⟨_, h1, _⟩ | h1
          · cases h1
          · exact h1
        fstep_cases h
        refine ⟨?_, hG⟩
        intro how' d _ a w b hab
        have hw : (w, Ev.shootdown) ∈ own s.g.tr := by rw [hab]; simp
        have hwt : w = t := by
          obtain ⟨x, h1⟩ := (exiting_inv hr).1 w ((own_sublist _).subset hw)
          obtain ⟨y, h2⟩ := (exiting_inv hr).2 t _ hft rfl
          exact occurs_unique (begin_once hr) h1 h2 rfl rfl
        subst hwt
        refine ⟨rfl, fun u hu => ?_⟩
        refine hd u ?_
        rcases hu with ⟨hu1, hu2⟩ | ⟨hu1, hu2⟩
        · exact Or.inl ⟨a, b, hab, hu1, hu2⟩
        · exact Or.inr ⟨hw, fun e => hu2 (by rw [hu1, e]), hu1⟩
      · obtain ⟨es, he, hes⟩ := fini_new h (fun how e => hf ⟨how, e⟩)
        rw [he]
        exact always_skip es (fun e he' old how d e1 => absurd e1 (hes e he' how d)) hG
    · rcases hS u a how b e with h1 | h1
      · exact Or.inl h1
      · exact Or.inr (h1.keep h (fun e => absurd e hu))
    · intro a how b e1
      rcases hSt a how b e1 with h1 | h1
      · exact Or.inl h1
      · right
        refine h1.keep h (fun _ hf => ?_)
        subst hf e
        fstep_cases h
    · rcases unwound_cases rest with h1 | ⟨_, _, _, _, h1⟩ <;> rw [h1] <;>
        exact fin_none (by simp)
    · subst e
      intro a how b e1
      by_cases hl : ∀ h' ∈ l, h'.cleaning = false
      · have hn : ∀ how, .epFini0 how ∉ l := by
          intro how' hm
          cases f <;> fstep_cases h <;> simp at hm <;>
            exact absurd (hl .sd0 (by simp)) (by simp [Frame.cleaning])
        rcases append_at e1 with ⟨a', k1, k2⟩ | ⟨c, k1⟩
        · subst k1
          rcases hSt (f :: a') how b (by rw [k2]; rfl) with ⟨h', k3, k4⟩ | h1
          · rcases List.mem_cons.1 k3 with k3 | k3
            · subst k3
              exact Or.inr (cleaned hr ht h k4 hl)
            · exact Or.inl ⟨h', List.mem_append_right _ k3, k4⟩
          · right
            refine h1.keep h (fun _ hf => ?_)
            subst hf
            fstep_cases h
            have := hl _ List.mem_cons_self
            cases this
        · exact absurd (by rw [k1]; simp) (hn how)
      · obtain ⟨h', k1, k2⟩ : ∃ h', h' ∈ l ∧ h'.cleaning = true := by
          apply Classical.byContradiction
          intro hc
          refine hl fun h' hm => ?_
          cases hx : h'.cleaning with
          | false => rfl
          | true => exact absurd ⟨h', hm, hx⟩ hc
        left
        rcases append_at e1 with ⟨a', k3, k4⟩ | ⟨c, k3⟩
        · exact ⟨h', by rw [k3]; exact List.mem_append_left _ k1, k2⟩
        · have hn : l = [.sd0, .epFini0 how] := by
            have hm : .epFini0 how ∈ l := by rw [k3]; simp
            cases f <;> fstep_cases h <;> simp at hm
            rw [hm]
          rw [hn] at k3
          cases a with
          | nil => simp at k3
          | cons a0 a =>
            injection k3 with k3 _
            exact ⟨.sd0, by rw [← k3]; exact List.mem_cons_self, rfl⟩
    · refine fin_none fun how hm => ?_
      rcases fstep_spawn h with ⟨e1, _⟩ | ⟨f1, l, e1, _, e2⟩
      · rw [e] at e1; cases e1
      · rw [e] at e1
        injection e1 with e1
        rw [← e1] at *
        simp only [List.mem_singleton] at hm
        subst hm
        subst e
        clear hS hSt ht hft e1
        cases f <;> fstep_cases h
  · intro s t i f rest pre hr hA ht _ hS _ _ hpre
    have hSt := hS t
    rw [ht] at hSt
    intro a how b e
    rcases append_at e with ⟨a', k1, k2⟩ | ⟨c, k1⟩
    · subst k1
      rcases hSt a' how b k2 with ⟨h', k3, k4⟩ | h1
      · exact Or.inl ⟨h', List.mem_append_right _ k3, k4⟩
      · exact Or.inr h1
    · have := (hpre (.epFini0 how) (by rw [k1]; simp)).1
      simp [Frame.pushable] at this
  · intro s t _ _ _ _ _
    rcases unwound_cases (s.th t) with h1 | ⟨_, _, _, _, h1⟩ <;> rw [h1] <;>
      exact fin_none (by simp)
  · intro s t c d rest hr hA ht hG _
    exact ⟨⟨(by intro _ _ h; cases h), hG⟩, hfk _ _ _ _ _, fun u _ => hfk _ _ _ _ _⟩
  · intro s t rest hr hA ht hG _
    exact ⟨⟨(by intro _ _ h; cases h), hG⟩, hfk _ _ _ _ _, fun u _ => hfk _ _ _ _ _⟩

end Libmonitor.Proc
