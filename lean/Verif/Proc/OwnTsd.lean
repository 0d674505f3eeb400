import Verif.Proc.Own
/-!
# Whose record the thread-specific data names, in clean executions
-/

namespace Libmonitor.Proc

/-- Main's record belongs to the initial thread. -/
def MainOwn (g : G) : Prop :=
  g.main.self = some (mainOf g.tr) ∧ g.tsd (mainOf g.tr) = some .main ∧
    ∀ u, g.tsd u = some .main → u = mainOf g.tr

theorem tsd_keep {g g' : G} {t : Tid} {ok : Bool} {v : Nat} {f : Frame} {nx : Next}
    {sp : Option Frame} (hr : f.resetting = false) (hb : ∀ n, f ≠ .bt0 n)
    (hp : ∀ st ar, f = .pc0 st ar → g.hasUsed = true)
    (h : fstep g t ok v f = some (g', nx, sp)) : g'.tsd = g.tsd := by
  cases f <;> first
    | (simp [Frame.resetting] at hr; done)
    | exact absurd rfl (hb _)
    | skip
  all_goals fstep_cases h <;> first | rfl | skip
  rename_i hu; rw [hp _ _ rfl] at hu; exact absurd rfl hu

theorem mainSelf_keep {g g' : G} {t : Tid} {ok : Bool} {v : Nat} {f : Frame} {nx : Next}
    {sp : Option Frame} (hr : f.resetting = false) (hfree : .main ∉ g.free)
    (hrec : f.threadRec ≠ some .main) (hp : ∀ st ar, f = .pc0 st ar → g.hasUsed = true)
    (h : fstep g t ok v f = some (g', nx, sp)) : g'.main.self = g.main.self := by
  cases f <;> first | (simp [Frame.resetting] at hr; done) | skip
  all_goals fstep_cases h <;> try rfl
  all_goals simp only [G.main, G.emit, G.upd, listInit]
  all_goals try (split <;> first
    | rfl
    | (rename_i e; exact absurd (by rw [← e]; rfl) hrec)
    | (rename_i e; exact absurd e.symm (alloc_ne_main hfree (by assumption)).1))
  rename_i hu; rw [hp _ _ rfl] at hu; exact absurd rfl hu

theorem mainOwn_init {g : G} {t : Tid} (ht : t = mainOf g.tr) : MainOwn (listInit g t) := by
  subst ht
  refine ⟨by simp [G.main, listInit, G.upd], by simp [listInit, G.upd], ?_⟩
  intro u hu
  simp only [listInit, G.upd] at hu ⊢
  by_cases e : u = mainOf g.tr
  · exact e
  · rw [if_neg e] at hu; cases hu

theorem mainOwn_keep {g g' : G} {t : Tid} {ok : Bool} {v : Nat} {f : Frame} {nx : Next}
    {sp : Option Frame} (hr : f.resetting = false) (hfree : .main ∉ g.free)
    (hrec : f.threadRec ≠ some .main) (hp : g.hasUsed = false → t = mainOf g.tr)
    (hb : ∀ n, f = .bt0 n → t ≠ mainOf g.tr)
    (h : fstep g t ok v f = some (g', nx, sp)) (hM : MainOwn g) : MainOwn g' := by
  by_cases hp0 : ∃ st ar, f = .pc0 st ar ∧ g.hasUsed = false
  · obtain ⟨st, ar, e, hu⟩ := hp0
    subst e
    fstep_cases h
    · rename_i hu'; rw [hu] at hu'; cases hu'
    · exact mainOwn_init (hp hu)
  have hp' : ∀ st ar, f = .pc0 st ar → g.hasUsed = true := by
    intro st ar e
    cases hu : g.hasUsed with
    | true => rfl
    | false => exact absurd ⟨st, ar, e, hu⟩ hp0
  have e1 := mainSelf_keep hr hfree hrec hp' h
  have e2 := mainOf_fstep h
  obtain ⟨m1, m2, m3⟩ := hM
  unfold MainOwn
  rw [e1, e2]
  refine ⟨m1, ?_⟩
  by_cases hb0 : ∃ n, f = .bt0 n
  · obtain ⟨n, e⟩ := hb0
    subst e
    have hne := hb n rfl
    have hn : n ≠ .main := fun e => hrec (by rw [e]; rfl)
    fstep_cases h
    refine ⟨?_, fun u hu => ?_⟩
    · show (if mainOf g.tr = t then some n else g.tsd (mainOf g.tr)) = some .main
      rw [if_neg (Ne.symm hne)]; exact m2
    · have hu : (if u = t then some n else g.tsd u) = some .main := hu
      by_cases e : u = t
      · rw [if_pos e] at hu; injection hu with hu; exact absurd hu hn
      · rw [if_neg e] at hu; exact m3 u hu
  · rw [tsd_keep hr (fun n e => hb0 ⟨n, e⟩) hp' h]
    exact ⟨m2, m3⟩

def TsdG (g : G) : Prop :=
  (∀ u, g.nextTid ≤ u → g.tsd u = none) ∧ (g.hasUsed = true → born g.tr = false → MainOwn g)

def TsdF (g : G) (u : Tid) (f : Frame) : Prop :=
  (f.isPc1 = true → g.hasUsed = true ∨ MainOwn g) ∧
  (∀ n, f.thr = some n → f ≠ .bt0 n → u ≠ mainOf g.tr → g.tsd u = some n)

theorem thr_of_armed {f : Frame} {n : NodeId} (h : f.armed = some n) :
    f.thr = some n ∧ ∀ m, f ≠ .bt0 m := by
  cases f <;> first | cases h; done | (injection h with h; subst h; exact ⟨rfl, by simp⟩)

theorem tsd_new {g g' : G} {t : Tid} {ok : Bool} {v : Nat} {f : Frame} {l : List Frame}
    {sp : Option Frame} (h : fstep g t ok v f = some (g', .go l, sp)) {h' : Frame} (hm : h' ∈ l) :
    (h'.isPc1 = true → ∃ st ar, f = .pc0 st ar ∧ g.hasUsed = false) ∧
      ∀ n, h'.thr = some n → h' ≠ .bt0 n ∧ f.thr = some n := by
  refine ⟨?_, ?_⟩
  · intro hp
    cases f <;> fstep_cases h <;>
      simp only [List.mem_cons, List.not_mem_nil, or_false] at hm <;>
      (try (rcases hm with hm | hm)) <;> (try subst hm) <;>
      first
      | (simp [Frame.isPc1] at hp; done)
      | skip
    rename_i hu
    exact ⟨_, _, rfl, by simpa using hu⟩
  · intro n hn
    cases f <;> fstep_cases h <;>
      simp only [List.mem_cons, List.not_mem_nil, or_false] at hm <;>
      (try (rcases hm with hm | hm)) <;> (try subst hm) <;>
      first
      | (simp [Frame.thr] at hn; done)
      | exact ⟨by simp, hn⟩
      | skip
    rename_i e; subst e; exact ⟨by simp, hn⟩

theorem tsd_inv {s : S} (hs : ReachA Clean s) :
    TsdG s.g ∧ ∀ u f, f ∈ s.th u → TsdF s.g u f := by
  refine frames_invA (GI := TsdG) (FI := TsdF) ?_ ?_ ?_ (fun _ h => h) (fun _ _ _ h => h) ?_ ?_ ?_ ?_ hs
  · exact ⟨fun _ _ => rfl, fun h => by cases h⟩
  · exact ⟨by simp [Frame.isPc1], by simp [Frame.thr]⟩
  · intro s t f rest ok v g' nx sp hr hA ht hG hF h
    have hft : f ∈ s.th t := by rw [ht]; exact List.mem_cons_self
    have hFf := hF t f hft
    obtain ⟨bG, bF⟩ := base_inv hr
    have hBf := bF t f hft
    have hm := mainOf_fstep h
    obtain ⟨hfree, hrec⟩ := rec_inv hr
    have hrec := hrec t f hft
    have hlt : t < s.g.nextTid := by
      cases Nat.lt_or_ge t s.g.nextTid with
      | inl h => exact h
      | inr h => have := fresh_inv hr t h; rw [ht] at this; cases this
    have hnext : s.g.nextTid ≤ g'.nextTid := by
      rcases fstep_spawn h with ⟨_, e⟩ | ⟨_, _, _, e, _⟩ <;> omega
    have hp : s.g.hasUsed = false → t = mainOf s.g.tr := by
      intro hu
      by_cases e : t = mainOf s.g.tr
      · exact e
      · rw [(hBf.1 e).1] at hu; cases hu
    have hb0 : ∀ n, f = .bt0 n → t ≠ mainOf s.g.tr := by
      intro n e
      rcases hBf.2.2.2 (by rw [e]; rfl) with h | h
      · exact h
      · rw [e] at h; cases h
    cases hres : f.resetting with
    | true =>
      have hb := hBf.2.1 hres
      obtain ⟨b1, _, b3, b4⟩ := birth_step hr ht hb
      have hu' : g'.hasUsed = true → g'.tr = s.g.tr := by
        intro hu
        clear hFf hBf hm hrec hft hb0
        cases f <;> first | (simp [Frame.resetting] at hres; done) | skip
        · fstep_cases h <;> rfl
        · fstep_cases h
          simp only [G.emit, G.upd, resetList] at hu
          split at hu
          · cases hu
          · rename_i h2; exact absurd hu h2
        · fstep_cases h
          simp only [G.emit, resetList] at hu
          split at hu
          · cases hu
          · rename_i h2; exact absurd hu h2
      have hold : ∀ u h', h' ∈ s.th u → (u = t → h' ∈ rest) → TsdF g' u h' := by
        intro u h' hm' hu
        by_cases e : u = t
        · have hk := b3 h' (hu e)
          refine ⟨fun hp => ?_, fun n _ _ hne => ?_⟩
          · cases h' <;> first | cases hp; done | cases hk
          · rw [hm, e] at hne; exact absurd b1 hne
        · rw [b4 u e] at hm'; cases hm'
      refine ⟨⟨?_, ?_⟩, hold, ?_, ?_, ?_, ?_⟩
      · intro u hu
        have := hG.1 u (Nat.le_trans hnext hu)
        clear hFf hBf hm hrec hft hb0 hu'
        cases f <;> first | (simp [Frame.resetting] at hres; done) | skip
        · fstep_cases h <;> exact this
        · fstep_cases h
          simp only [G.emit, G.upd, resetList]
          split <;> first | rfl | exact this
        · fstep_cases h
          simp only [G.emit, resetList]
          split <;> first | rfl | exact this
      · intro hu hb'
        rw [hu' hu, hb] at hb'; cases hb'
      · intro e; subst e
        cases f <;> first | (simp [Frame.resetting] at hres; done) | fstep_cases h
      · intro l e h' hm'
        subst e
        obtain ⟨k1, k2⟩ := tsd_new h hm'
        refine ⟨fun hp => ?_, fun n _ _ hne => ?_⟩
        · obtain ⟨st, ar, e, _⟩ := k1 hp
          subst e; cases hres
        · rw [hm] at hne; exact absurd b1 hne
      · intro h' e; subst e
        cases f <;> first | (simp [Frame.resetting] at hres; done) | fstep_cases h
      · intro e; subst e
        cases f <;> first | (simp [Frame.resetting] at hres; done) | fstep_cases h
    | false =>
      have mk := mainOwn_keep hres hfree hrec hp hb0 h
      have hk := hasUsed_keep hres h
      have htsd : s.g.hasUsed = true → (∀ n, f ≠ .bt0 n) → g'.tsd = s.g.tsd :=
        fun hu hb => tsd_keep hres hb (fun _ _ _ => hu) h
      have hold : ∀ u h', h' ∈ s.th u → (u = t → h' ∈ rest ∨ ∀ n, f ≠ .bt0 n) → TsdF g' u h' := by
        intro u h' hm' hu
        obtain ⟨k1, k2⟩ := hF u h' hm'
        refine ⟨fun hp => (k1 hp).imp hk mk, fun n hn hnb hne => ?_⟩
        rw [hm] at hne
        have := k2 n hn hnb hne
        have hused := ((bF u h' hm').1 hne).1
        by_cases hbt : ∃ m, f = .bt0 m
        · obtain ⟨m, e⟩ := hbt
          have hut : u ≠ t := by
            intro eu
            rcases hu eu with hr' | hr'
            · have hsh := shape_inv hr t
              rw [ht, e] at hsh
              have := hsh.1 rfl
              rw [this] at hr'; cases hr'
            · exact hr' m e
          subst e
          fstep_cases h
          show (if u = t then some m else s.g.tsd u) = some n
          rw [if_neg hut]; exact this
        · rw [htsd hused (fun m e => hbt ⟨m, e⟩)]; exact this
      refine ⟨⟨?_, ?_⟩, fun u h' hm' hu => hold u h' hm' (fun e => Or.inl (hu e)), ?_, ?_, ?_, ?_⟩
      · intro u hu
        have hu : s.g.nextTid ≤ u := Nat.le_trans hnext hu
        have := hG.1 u hu
        have hut : u ≠ t := by omega
        clear hFf hBf hm hrec hft hb0 mk hk htsd hold
        cases f <;> first | (simp [Frame.resetting] at hres; done) | skip
        all_goals fstep_cases h <;> first
          | exact this
          | (show (if u = t then _ else _) = none; rw [if_neg hut] <;> exact this)
      · intro hu hb'
        cases hc : s.g.hasUsed with
        | true =>
          refine mk (hG.2 hc ?_)
          cases hb : born s.g.tr with
          | false => rfl
          | true => rw [(birth_step hr ht hb).2.1] at hres; cases hres
        | false =>
          refine mk ((hFf.1 ?_).resolve_left (by rw [hc]; simp))
          clear hFf hBf hm hrec hft hb0 mk hk htsd hold hp
          cases f <;> first
            | rfl
            | (fstep_cases h <;> first | (rw [hc] at hu; cases hu) | (simp [listInit, G.emit, G.upd, hc] at hu; done) | (cases hres))
      · intro e; subst e
        refine hold t f hft (fun _ => Or.inr ?_)
        intro n e; subst e; fstep_cases h
      · intro l e h' hm'
        subst e
        obtain ⟨k1, k2⟩ := tsd_new h hm'
        refine ⟨fun hp' => ?_, fun n hn hnb hne => ?_⟩
        · obtain ⟨st, ar, e, hu⟩ := k1 hp'
          subst e
          fstep_cases h
          · rename_i hu'; rw [hu] at hu'; cases hu'
          · exact Or.inr (mainOwn_init (hp hu))
        · have hfn := (k2 n hn).2
          rw [hm] at hne
          have hused := (hBf.1 hne).1
          by_cases hbt : ∃ m, f = .bt0 m
          · obtain ⟨m, e⟩ := hbt
            subst e
            fstep_cases h
            show (if t = t then some m else s.g.tsd t) = some n
            rw [if_pos rfl]; exact hfn
          · rw [htsd hused (fun m e => hbt ⟨m, e⟩)]
            exact hFf.2 n hfn (fun e => hbt ⟨n, e⟩) hne
      · intro h' e; subst e
        refine ⟨fun hp => ?_, fun n hn hnb _ => ?_⟩
        · cases f <;> fstep_cases h <;> cases hp
        · cases f <;> fstep_cases h <;> first | (cases hn; done) | (injection hn with hn; subst hn; exact absurd rfl hnb)
      · intro e h' hm'
        subst e
        have hnb : ∀ n, f ≠ .bt0 n := by
          intro n e; subst e; fstep_cases h
        rcases unwound_cases rest with e | ⟨f', n, hf', ha, e⟩
        · rw [e, List.mem_singleton] at hm'; subst hm'
          exact ⟨by simp [Frame.isPc1], by simp [Frame.thr]⟩
        · rw [e] at hm'
          rcases List.mem_cons.1 hm' with hm' | hm'
          · subst hm'
            refine ⟨by simp [Frame.isPc1], fun m hm _ hne => ?_⟩
            obtain ⟨a1, a2⟩ := thr_of_armed ha
            injection hm with hm; subst hm
            exact (hold t f' (by rw [ht]; exact List.mem_cons_of_mem _ hf') (fun _ => Or.inr hnb)).2
              n a1 (a2 n) hne
          · rw [List.mem_singleton] at hm'; subst hm'
            exact ⟨by simp [Frame.isPc1], by simp [Frame.thr]⟩
  · intro s t i h hr hA hG hne hF _ _ hp _
    refine ⟨?_, ?_⟩ <;>
      (cases h <;> simp [Frame.pushable, Frame.isPc1, Frame.thr] at hp ⊢)
  · intro s t hr hA hG hne hF h hm
    rcases unwound_cases (s.th t) with e | ⟨f', n, hf', ha, e⟩
    · rw [e, List.mem_singleton] at hm; subst hm
      exact ⟨by simp [Frame.isPc1], by simp [Frame.thr]⟩
    · rw [e] at hm
      rcases List.mem_cons.1 hm with hm | hm
      · subst hm
        refine ⟨by simp [Frame.isPc1], fun m hm _ hne => ?_⟩
        obtain ⟨a1, a2⟩ := thr_of_armed ha
        injection hm with hm; subst hm
        exact (hF t f' hf').2 n a1 (a2 n) hne
      · rw [List.mem_singleton] at hm; subst hm
        exact ⟨by simp [Frame.isPc1], by simp [Frame.thr]⟩
  · intro s t c d rest hr hA ht hG hF
    refine ⟨⟨hG.1, fun _ h => by cases h⟩, fun h hm => ⟨fun hp => ?_, fun _ _ _ h => absurd rfl h⟩⟩
    rcases List.mem_cons.1 hm with e | hm
    · subst e; cases hp
    rcases List.mem_cons.1 hm with e | hm
    · subst e; cases hp
    have := hA h (by rw [ht]; exact List.mem_cons_of_mem _ hm)
    cases h <;> first | cases hp; done | cases this
  · intro s t rest hr hA ht hG hF
    refine ⟨⟨hG.1, fun _ h => by cases h⟩, fun h hm => ⟨fun hp => ?_, fun _ _ _ h => absurd rfl h⟩⟩
    rcases List.mem_cons.1 hm with e | hm
    · subst e; cases hp
    have := hA h (by rw [ht]; exact List.mem_cons_of_mem _ hm)
    cases h <;> first | cases hp; done | cases this


/-- A thread whose thread-specific data names the record of a created thread is that thread or is
at its end. -/
def Back (g : G) (u : Tid) (l : List Frame) : Prop :=
  born g.tr = false → ∀ n, g.tsd u = some n → n ≠ .main →
    l = [] ∨ l = [.tdtor] ∨ ∃ f ∈ l, f.thr = some n ∧ f ≠ .bt0 n

theorem back_unwound {g : G} {t : Tid} {l : List Frame} (h : Back g t l)
    (hs : Shape l) : Back g t (unwound l) := by
  intro hb n hn hne
  rcases h hb n hn hne with h | h | ⟨f, hf, h1, h2⟩
  · subst h; exact Or.inr (Or.inl rfl)
  · subst h; exact Or.inr (Or.inl rfl)
  · obtain ⟨a, b, e, h3, h4, _⟩ := shape_mem hs hf
    have key : f.bottom = true ∨ f.cleanup = true := by
      cases f <;> simp [Frame.thr, Frame.bottom, Frame.cleanup] at h1 ⊢ <;> exact h1.1
    rcases key with k | k
    · have hb := h3 k
      subst hb
      cases f <;> first | cases k; done | (cases h1; done) | skip
      all_goals simp only [unwound, e, List.getLast?_append, List.getLast?_singleton, Option.some_or]
      all_goals first
        | (injection h1 with h1; subst h1; exact absurd rfl h2)
        | exact Or.inr (Or.inl trivial)
        | exact Or.inr (Or.inr ⟨_, List.mem_cons_self, h1, by simp⟩)
    · have hb := h4 k
      subst hb
      right; left
      have : (a ++ f :: [Frame.tdtor]) = (a ++ [f]) ++ [.tdtor] := by simp
      rw [e, this]
      simp only [unwound, List.getLast?_append, List.getLast?_singleton, Option.some_or]

theorem reset_tsd {g g' : G} {t : Tid} {ok : Bool} {v : Nat} {f : Frame} {nx : Next}
    {sp : Option Frame} (hr : f.resetting = true) (hb : born g.tr = true)
    (hG : g.hasUsed = false → ∀ u n, g.tsd u = some n → n = .main)
    (h : fstep g t ok v f = some (g', nx, sp)) (hb' : born g'.tr = false) :
    ∀ u n, g'.tsd u = some n → n = .main := by
  cases f <;> first | (simp [Frame.resetting] at hr; done) | skip
  · fstep_cases h <;> (rw [hb] at hb'; cases hb')
  all_goals
    fstep_cases h
    simp only [G.emit, G.upd, resetList]
    split
    · simp
    · rename_i hu; exact hG (by simpa using hu)

theorem back_inv {s : S} (hs : ReachA Clean s) (u : Tid) : Back s.g u (s.th u) := by
  refine (stack_invA (GI := fun _ => True) (SI := Back) trivial ?_ ?_ ?_
    (fun _ h => h) (fun _ _ _ h => h) ?_ ?_ ?_ ?_ hs).2 u
  · intro _ _ h; cases h
  · intro _ _ _ _ h; cases h
  · intro s t f rest ok v g' nx sp hr hA ht _ hS h
    have hft : f ∈ s.th t := by rw [ht]; exact List.mem_cons_self
    obtain ⟨bG, bF⟩ := base_inv hr
    obtain ⟨tG, tF⟩ := tsd_inv hr
    have hBf := bF t f hft
    have hsh := shape_inv hr t
    rw [ht] at hsh
    refine ⟨trivial, ?_⟩
    cases hb : born s.g.tr with
    | true =>
      obtain ⟨b1, b2, b3, b4⟩ := birth_step hr ht hb
      have key := fun hb' => reset_tsd b2 hb (fun hu => (bG.2 hu).2.2) h hb'
      have kk : ∀ u l, Back g' u l := fun u l hb' n hn hne => absurd (key hb' u n hn) hne
      exact ⟨fun _ _ _ => kk _ _, fun _ => kk _ _, fun _ => kk _ _, fun _ _ => kk _ _,
        fun _ _ => kk _ _⟩
    | false =>
      have hres : f.resetting = false := by
        cases hc : f.resetting with
        | false => rfl
        | true => rw [hBf.2.1 hc] at hb; cases hb
      have hS' := fun u => hS u hb
      have htsd : ∀ u n, n ≠ .main → (∀ m, f ≠ .bt0 m) ∨ u ≠ t → g'.tsd u = some n →
          s.g.tsd u = some n := by
        intro u n hne hor hu
        clear hBf hsh hS hS' hft ht
        cases f <;> first | (simp [Frame.resetting] at hres; done) | skip
        all_goals fstep_cases h <;> first
          | exact hu
          | (simp only [listInit, G.upd] at hu
             split at hu
             · injection hu with hu; exact absurd hu.symm hne
             · cases hu)
          | skip
        rename_i m
        have hut : u ≠ t := hor.resolve_left (fun h => h m rfl)
        have hu : (if u = t then some m else s.g.tsd u) = some n := hu
        rw [if_neg hut] at hu; exact hu
      refine ⟨?_, ?_, ?_, ?_, ?_⟩
      · intro u hu _ _ n hn hne
        exact hS' u n (htsd u n hne (Or.inr hu) hn) hne
      · intro e; subst e
        intro _ n hn hne
        have := hS' t n (htsd t n hne (Or.inl ?_) hn) hne
        · rw [ht] at this; exact this
        · intro m e; subst e; fstep_cases h
      · intro e; subst e
        refine back_unwound ?_ hsh.2.2
        intro _ n hn hne
        have hpx : f = .px0 ∨ f = .px1 := by
          clear hA ht hft hBf
          cases f <;> fstep_cases h <;> simp
        have := hS' t n (htsd t n hne (Or.inl ?_) hn) hne
        · rw [ht] at this
          rcases this with h | h | ⟨f', h1, h2, h3⟩
          · cases h
          · rcases hpx with e | e <;> (rw [e] at h; cases h)
          · rcases List.mem_cons.1 h1 with e | h1
            · subst e
              rcases hpx with e | e <;> (rw [e] at h2; cases h2)
            · exact Or.inr (Or.inr ⟨f', h1, h2, h3⟩)
        · intro m e; subst e; fstep_cases h
      · intro l e; subst e
        intro _ n hn hne
        by_cases hbt : ∃ m, f = .bt0 m
        · obtain ⟨m, e⟩ := hbt
          subst e
          fstep_cases h
          have hn : (if t = t then some m else s.g.tsd t) = some n := hn
          rw [if_pos rfl] at hn
          exact Or.inr (Or.inr ⟨.bt1 m, List.mem_cons_self, hn, by simp⟩)
        · have hn' := htsd t n hne (Or.inl (fun m e => hbt ⟨m, e⟩)) hn
          have := hS' t n hn' hne
          rw [ht] at this
          rcases this with e | e | ⟨f', h1, h2, h3⟩
          · cases e
          · injection e with e1 e2
            subst e1; subst e2
            have hg : gone s t = true := by
              simp only [gone, ht, hn']
              cases n with
              | main => exact absurd rfl hne
              | slot a i => rfl
            have := hA.1 hg
            subst this
            fstep_cases h
            · exact Or.inl rfl
            · rename_i h _; exact absurd trivial h
          · rcases List.mem_cons.1 h1 with e | h1
            · subst e
              clear hA hBf hft ht hS hS' htsd tG tF bG bF
              obtain ⟨s1, s2, _⟩ := hsh
              cases f' <;> fstep_cases h <;> first
                | (cases h2; done)
                | exact Or.inr (Or.inr ⟨_, List.mem_cons_self, h2, by simp⟩)
                | (rw [s1 rfl]; exact Or.inr (Or.inl rfl))
                | (rw [s2 rfl]; exact Or.inr (Or.inl rfl))
                | skip
              · rename_i e _; subst e
                exact Or.inr (Or.inr ⟨_, List.mem_cons_self, h2, by simp⟩)
              · rename_i e _
                simp [Frame.thr, e] at h2
            · exact Or.inr (Or.inr ⟨f', List.mem_append.2 (Or.inr h1), h2, h3⟩)
      · intro f0 e; subst e
        intro _ n hn hne
        have := htsd _ n hne (Or.inl ?_) hn
        · rw [tG.1 _ (Nat.le_refl _)] at this; cases this
        · intro m e; subst e; fstep_cases h
  · intro s t i f rest pre hr hA ht _ hS hi1 hi2 hpre hb n hn hne
    have hgone : gone s t = false := by
      cases i with
      | go ok v => exact absurd rfl (hi2 ok v)
      | unwind => exact absurd rfl hi1
      | call a => exact hA
      | deliver => exact hA.2
      | interrupt => exact hA.2
    rcases hS t hb n hn hne with h | h | ⟨f', h1, h2, h3⟩
    · rw [ht] at h; cases h
    · exfalso
      simp only [gone, h, hn] at hgone
      cases n with
      | main => exact hne rfl
      | slot a i => simp at hgone
    · rw [ht] at h1
      exact Or.inr (Or.inr ⟨f', List.mem_append.2 (Or.inr h1), h2, h3⟩)
  · intro s t hr hA _ hne hS
    exact back_unwound (hS t) (shape_inv hr t)
  · intro s t c d rest hr hA ht _ hS
    exact ⟨trivial, fun h => (by cases h), fun _ _ h => (by cases h)⟩
  · intro s t rest hr hA ht _ hS
    exact ⟨trivial, fun h => (by cases h), fun _ _ h => (by cases h)⟩

end Libmonitor.Proc
