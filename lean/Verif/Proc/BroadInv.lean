import Verif.Proc.ListI
/-!
# The signals that a call of monitor_broadcast_signal sends
-/

namespace Libmonitor.Proc

theorem own_started {tr : Hist} (h : startedBy tr = none) : own tr = tr := by
  induction tr with
  | nil => rfl
  | cons x tr ih =>
    obtain ⟨u, e⟩ := x
    cases e <;> first
      | (cases h; done)
      | (simp only [own, Ev.isForked, Bool.false_eq_true, if_false]
         simp only [startedBy] at h
         rw [ih h])

/-- A step outside the calls of monitor_broadcast_signal, or one that fails. -/
theorem callOf_keep {g g' : G} {w : Tid} {ok : Bool} {v : Nat} {f : Frame} {nx : Next}
    {sp : Option Frame} (h : fstep g w ok v f = some (g', nx, sp)) {t : Tid}
    (hf : w = t → tokLock f = 0 ∨ (∀ sig, f ≠ .br0 sig) ∧ (∀ sig l, f ≠ .br1 sig l) ∧
      (∀ sig n l, f ≠ .brKill sig n l) ∧ ∀ sig, f ≠ .br2 sig)
    (h0 : ∀ sig, w = t → f = .br0 sig → g.lock = true) (d : Nat) :
    callOf t d (own g'.tr) = callOf t d (own g.tr) ∧ callOf t d g'.tr = callOf t d g.tr := by
  by_cases e : w = t
  · subst e
    have hf := hf rfl
    cases f <;> fstep_cases h <;> first
      | exact ⟨rfl, rfl⟩
      | (simp [G.emit, G.upd, own, Ev.isForked, callOf]; done)
      | (simp [tokLock] at hf; done)
      | (rename_i h1; exact absurd (h0 _ rfl rfl) h1)
      | skip
  · clear hf h0
    cases f <;> fstep_cases h <;> first
      | exact ⟨rfl, rfl⟩
      | (simp [G.emit, G.upd, own, Ev.isForked, callOf, e]; done)
      | skip

/-- Main is on the list of threads only in exit cleanup. -/
theorem main_list {A : S → Lbl → Prop} {s : S} (hs : ReachA A s)
    (h : ∀ w, (w, .shootdown) ∉ s.g.tr) : .main ∉ s.g.list := by
  revert h
  refine glob_inv (A := A) (GI := fun g => (∀ w, (w, Ev.shootdown) ∉ g.tr) → .main ∉ g.list)
    (fun _ h => by cases h) ?_ (fun _ h => h) ?_ hs
  · intro s t f rest ok v g' nx sp hr hA ht hG h hns
    have hft : f ∈ s.th t := by rw [ht]; exact List.mem_cons_self
    have hns0 : ∀ w, (w, Ev.shootdown) ∉ s.g.tr := fun w hw => hns w (mem_of_fstep h _ hw)
    have hG := hG hns0
    have h3 : f ≠ .sd3 := fun e => by
      subst e; exact hns0 t (shooting_inv hr hft rfl)
    have h2 := (rec_inv hr).2 t f hft
    clear hA ht hft hns
    cases f <;> first | exact absurd rfl h3 | skip
    all_goals fstep_cases h <;> first
      | exact hG
      | (simp [listInit]; done)
      | (exact fun hm => hG (List.mem_of_mem_erase hm))
      | (simp only [resetList, G.upd, G.emit]; split <;> first | exact hG | exact List.not_mem_nil)
      | (intro hm
         rcases List.mem_cons.1 hm with hm | hm
         · exact h2 (by rw [← hm]; rfl)
         · exact hG hm)
  · intro s t real _ hG h
    exact hG (fun w hw => h w (List.mem_cons_of_mem _ hw))

/-- A call that goes through the list: the targets of its signals so far, the history before it, the
records still to be visited. -/
structure BrTodo (g : G) (t : Tid) (l : List (Option Tid)) (b : Hist) (todo : List NodeId) : Prop where
  used : g.hasUsed = true
  old : ∀ e, e ∈ b → e ∈ g.tr
  list : ∀ n ∈ todo, n ≠ .main → n ∈ g.list ∧ todo.count n ≤ 1
  once : ∀ u, u ≠ mainOf g.tr → l.count (some u) ≤ 1 ∧
    (1 ≤ l.count (some u) → ∀ n ∈ todo, n ≠ .main → (g.nodes n).self ≠ some u)
  all : ∀ u, u ≠ t → u ≠ mainOf g.tr → runsIn u b g.tr → 1 ≤ l.count (some u) ∨
    ∃ n ∈ todo, n ≠ .main ∧ (g.nodes n).self = some u
  main : (∀ w, (w, .shootdown) ∉ g.tr) → l.count (some (mainOf g.tr)) = 0 ∧ .main ∉ todo
  known : ∀ x ∈ l, ∃ u, x = some u ∧ u ≠ t ∧ (u = mainOf g.tr ∨ ∃ k, (u, .linked k) ∈ g.tr)

/-- A call that is through the list. -/
structure BrEnd (g : G) (t : Tid) (l : List (Option Tid)) (b : Hist) : Prop where
  once : ∀ u, u ≠ mainOf g.tr → l.count (some u) ≤ 1
  all : ∀ u, u ≠ t → u ≠ mainOf g.tr → runsIn u b g.tr → 1 ≤ l.count (some u)
  main1 : t ≠ mainOf g.tr → 1 ≤ l.count (some (mainOf g.tr))
  main : (∀ w, (w, .shootdown) ∉ g.tr) → l.count (some (mainOf g.tr)) ≤ 1
  known : ∀ x ∈ l, ∃ u, x = some u ∧ u ≠ t ∧ (u = mainOf g.tr ∨ ∃ k, (u, .linked k) ∈ g.tr)

def BrF (g : G) (t : Tid) : Frame → Prop
  | .br1 _ todo => callOf t 0 g.tr ≠ none ∧
    ∀ l b, callOf t 0 (own g.tr) = some (l, b) → BrTodo g t l b todo
  | .brKill _ n todo => callOf t 0 g.tr ≠ none ∧
    ∀ l b, callOf t 0 (own g.tr) = some (l, b) → BrTodo g t l b (n :: todo) ∧
      (n = .main → t ≠ mainOf g.tr) ∧ (n ≠ .main → (g.nodes n).self ≠ some t)
  | .br2 _ => callOf t 0 g.tr ≠ none ∧ ∀ l b, callOf t 0 (own g.tr) = some (l, b) → BrEnd g t l b
  | _ => True

theorem runsIn_mono {u : Tid} {b tr tr' : Hist} (h : ∀ e, e ∈ tr → e ∈ tr') (hr : runsIn u b tr') :
    runsIn u b tr :=
  ⟨hr.1, hr.2.1, fun k d src hm => hr.2.2 k d src (h _ hm)⟩

theorem born_of_call {t : Tid} {tr : Hist} {x : List (Option Tid) × Hist}
    (h : callOf t 0 (own tr) = some x) : born tr = false := by
  cases hb : born tr with
  | false => rfl
  | true => rw [own_born hb] at h; cases h

/-- The first step: nothing sent. -/
theorem brTodo_start {s : S} (hr : ReachA Clean s) {t : Tid} {f : Frame} {rest : List Frame}
    (ht : s.th t = f :: rest) (hb : born s.g.tr = false) (hu : s.g.hasUsed = true)
    (g' : G) (h1 : g'.hasUsed = s.g.hasUsed) (h2 : g'.list = s.g.list) (h3 : g'.nodes = s.g.nodes)
    (sig : Nat) (h4 : g'.tr = (t, .brCall sig) :: s.g.tr) :
    BrTodo g' t [] (own s.g.tr) s.g.list := by
  have hm : mainOf g'.tr = mainOf s.g.tr := by rw [h4]; exact mainOf_cons _ _ rfl
  have ho : ∀ e, e ∈ own s.g.tr → e ∈ s.g.tr := fun e he => (own_sublist _).subset he
  refine ⟨by rw [h1]; exact hu, fun e he => ?_, fun n hn hnm => ?_, fun u _ => ?_, ?_, fun hns => ?_, ?_⟩
  · rw [h4]; exact List.mem_cons_of_mem _ (ho e he)
  · rw [h2]
    exact ⟨hn, Nat.le_of_eq (list_excl hr hnm hb hn).1⟩
  · exact ⟨by simp, fun hc => by simp at hc⟩
  · intro u hut hum hrun
    rw [hm] at hum
    obtain ⟨⟨k, hk⟩, _, hfin⟩ := hrun
    obtain ⟨n, n1, n2, n3⟩ := (listI_inv hr hb).2 u k hum hk
      (fun k d src hc => hfin k d src (by rw [h4]; exact List.mem_cons_of_mem _ hc))
    exact Or.inr ⟨n, n1, n2, by rw [h3]; exact n3⟩
  · refine ⟨by simp, main_list hr (fun w hw => hns w ?_)⟩
    rw [h4]; exact List.mem_cons_of_mem _ hw
  · intro x hx; cases hx

/-- Steps of other calls. -/
theorem brTodo_keep {s : S} (hr : ReachA Clean s) {t : Tid} {f : Frame} {rest : List Frame}
    {ok : Bool} {v : Nat} {g' : G} {nx : Next} {sp : Option Frame} (ht : s.th t = f :: rest)
    (h : fstep s.g t ok v f = some (g', nx, sp)) (hb : born s.g.tr = false) (hf : tokLock f = 0)
    {u : Tid} {l : List (Option Tid)} {b : Hist} {todo : List NodeId}
    (hB : BrTodo s.g u l b todo) : BrTodo g' u l b todo := by
  have hft : f ∈ s.th t := by rw [ht]; exact List.mem_cons_self
  have hmem := mem_of_fstep h
  have hmo := mainOf_fstep h
  have hnr := not_resetting hr hft hb
  have hul : ∀ n, f ≠ .ul1 n := fun n e => by subst e; cases hf
  have hself : ∀ n ∈ todo, n ≠ .main → (g'.nodes n).self = (s.g.nodes n).self := fun n hn hnm =>
    (list_self_keep hr ht h hb hnm (hB.list n hn hnm).1 (fun e => absurd e (hul n))).1
  refine ⟨hasUsed_keep hnr h hB.used, fun e he => hmem _ (hB.old e he), fun n hn hnm => ?_,
    fun w hw => ?_, fun w hwu hwm hrun => ?_, fun hns => ?_, fun x hx => ?_⟩
  · exact ⟨list_keep hnr hB.used h (hul n) (hB.list n hn hnm).1, (hB.list n hn hnm).2⟩
  · rw [hmo] at hw
    refine ⟨(hB.once w hw).1, fun h1 n hn hnm => ?_⟩
    rw [hself n hn hnm]
    exact (hB.once w hw).2 h1 n hn hnm
  · rw [hmo] at hwm
    rcases hB.all w hwu hwm (runsIn_mono hmem hrun) with h1 | ⟨n, hn, hnm, h1⟩
    · exact Or.inl h1
    · exact Or.inr ⟨n, hn, hnm, by rw [hself n hn hnm]; exact h1⟩
  · rw [hmo]
    exact hB.main (fun w hw => hns w (hmem _ hw))
  · obtain ⟨w, h1, h2, h3⟩ := hB.known x hx
    rw [hmo]
    exact ⟨w, h1, h2, h3.imp_right (fun ⟨k, h⟩ => ⟨k, hmem _ h⟩)⟩

theorem brEnd_keep {g g' : G} (hmem : ∀ e, e ∈ g.tr → e ∈ g'.tr) (hmo : mainOf g'.tr = mainOf g.tr)
    {u : Tid} {l : List (Option Tid)} {b : Hist} (hB : BrEnd g u l b) : BrEnd g' u l b := by
  refine ⟨fun w hw => ?_, fun w hwu hwm hrun => ?_, fun hu => ?_, fun hns => ?_, fun x hx => ?_⟩
  · rw [hmo] at hw; exact hB.once w hw
  · rw [hmo] at hwm; exact hB.all w hwu hwm (runsIn_mono hmem hrun)
  · rw [hmo] at hu ⊢; exact hB.main1 hu
  · rw [hmo]; exact hB.main (fun w hw => hns w (hmem _ hw))
  · obtain ⟨w, h1, h2, h3⟩ := hB.known x hx
    rw [hmo]
    exact ⟨w, h1, h2, h3.imp_right (fun ⟨k, h⟩ => ⟨k, hmem _ h⟩)⟩

/-- One element of the list. -/
theorem brTodo_step {s : S} (hr : ReachA Clean s) (hb : born s.g.tr = false) {t : Tid} {l : List (Option Tid)} {b : Hist}
    {n : NodeId} {todo : List NodeId} (hB : BrTodo s.g t l b (n :: todo)) :
    (∀ sig, (s.g.nodes n).self ≠ some t →
      BrTodo (s.g.emit t (.kill (s.g.nodes n).self (some sig))) t ((s.g.nodes n).self :: l) b todo) ∧
    (¬((s.g.nodes n).self ≠ some t ∧ (s.g.nodes n).appl = true ∧ (s.g.nodes n).finiS = false) →
      BrTodo s.g t l b todo) := by
  have hmain := ((tsd_inv hr).1.2 hB.used hb).1
  have hlist : ∀ m ∈ todo, m ≠ .main → m ∈ s.g.list ∧ todo.count m ≤ 1 := fun m hm hmm => by
    obtain ⟨h1, h2⟩ := hB.list m (List.mem_cons_of_mem _ hm) hmm
    refine ⟨h1, ?_⟩
    rw [List.count_cons] at h2; omega
  -- two records of one thread
  have huniq : ∀ m ∈ todo, m ≠ .main → n ≠ .main → ∀ u, (s.g.nodes n).self = some u →
      (s.g.nodes m).self ≠ some u := fun m hm hmm hnm u hu hc => by
    obtain ⟨h1, h2⟩ := hB.list n List.mem_cons_self hnm
    obtain ⟨_, u1, _, a1, a2⟩ := list_self hr hb h1 hnm
    obtain ⟨_, u2, _, b1, b2⟩ := list_self hr hb (hlist m hm hmm).1 hmm
    rw [hu] at a1; rw [hc] at b1
    injection a1 with a1; injection b1 with b1
    subst a1; subst b1
    rw [a2] at b2
    injection b2 with b2; subst b2
    rw [List.count_cons_self] at h2
    have := List.count_pos_iff.2 hm
    omega
  refine ⟨fun sig hne => ?_, fun hno => ?_⟩
  · have hmem : ∀ e, e ∈ s.g.tr → e ∈ (s.g.emit t (.kill (s.g.nodes n).self (some sig))).tr :=
      fun e he => List.mem_cons_of_mem _ he
    have hmo : mainOf (s.g.emit t (.kill (s.g.nodes n).self (some sig))).tr = mainOf s.g.tr :=
      mainOf_cons _ _ rfl
    -- the target
    have htgt : ∃ w, (s.g.nodes n).self = some w ∧ (n = .main → w = mainOf s.g.tr) ∧
        (n ≠ .main → w ≠ mainOf s.g.tr) ∧ (w = mainOf s.g.tr ∨ ∃ k, (w, .linked k) ∈ s.g.tr) := by
      by_cases hnm : n = .main
      · subst hnm
        exact ⟨_, hmain, fun _ => rfl, fun h => absurd rfl h, Or.inl rfl⟩
      · have h1 := (hB.list n List.mem_cons_self hnm).1
        obtain ⟨_, w, a1, a2, a3⟩ := list_self hr hb h1 hnm
        exact ⟨w, a2, fun h => absurd h hnm, fun _ => a1,
          Or.inr ((listI_inv hr hb).1 n h1 hnm w a2).1⟩
    obtain ⟨w, w1, w2, w3, w4⟩ := htgt
    rw [w1]
    refine ⟨hB.used, fun e he => List.mem_cons_of_mem _ (hB.old e he), hlist, fun u hu => ?_,
      fun u hut hum hrun => ?_, fun hns => ?_, fun x hx => ?_⟩
    · have hu : u ≠ mainOf s.g.tr := by rw [w1] at hmo; rwa [hmo] at hu
      obtain ⟨o1, o2⟩ := hB.once u hu
      by_cases e : w = u
      · subst e
        have hnm : n ≠ .main := fun e => hu (w2 e)
        have h0 : l.count (some w) = 0 := by
          cases hc : l.count (some w) with
          | zero => rfl
          | succ k => exact absurd w1 (o2 (by omega) n List.mem_cons_self hnm)
        rw [List.count_cons_self, h0]
        exact ⟨Nat.le_refl _, fun _ m hm hmm => huniq m hm hmm hnm w w1⟩
      · rw [List.count_cons_of_ne (by simpa using e)]
        exact ⟨o1, fun h1 m hm hmm => o2 h1 m (List.mem_cons_of_mem _ hm) hmm⟩
    · have hum : u ≠ mainOf s.g.tr := by rw [w1] at hmo; rwa [hmo] at hum
      rcases hB.all u hut hum (runsIn_mono (fun e he => List.mem_cons_of_mem _ he) hrun) with h1 | ⟨m, hm, hmm, h1⟩
      · left
        rw [List.count_cons]; omega
      · rcases List.mem_cons.1 hm with e | hm
        · subst e
          rw [w1] at h1
          injection h1 with h1; subst h1
          left
          rw [List.count_cons_self]; omega
        · exact Or.inr ⟨m, hm, hmm, h1⟩
    · obtain ⟨h1, h2⟩ := hB.main (fun w hw => hns w (List.mem_cons_of_mem _ hw))
      rw [w1] at hmo
      rw [hmo]
      refine ⟨?_, fun hm => h2 (List.mem_cons_of_mem _ hm)⟩
      have hnm : n ≠ .main := fun e => h2 (by rw [e]; exact List.mem_cons_self)
      rw [List.count_cons_of_ne (by simpa using w3 hnm)]
      exact h1
    · rw [w1] at hmo
      rw [hmo]
      rcases List.mem_cons.1 hx with e | hx
      · subst e
        exact ⟨w, rfl, fun e => hne (by rw [w1, e]), w4.imp_right
          (fun ⟨k, h⟩ => ⟨k, List.mem_cons_of_mem _ h⟩)⟩
      · obtain ⟨w, h1, h2, h3⟩ := hB.known x hx
        exact ⟨w, h1, h2, h3.imp_right (fun ⟨k, h⟩ => ⟨k, List.mem_cons_of_mem _ h⟩)⟩
  · refine ⟨hB.used, hB.old, hlist, fun u hu => ?_, fun u hut hum hrun => ?_, fun hns => ?_, hB.known⟩
    · exact ⟨(hB.once u hu).1, fun h1 m hm hmm => (hB.once u hu).2 h1 m (List.mem_cons_of_mem _ hm) hmm⟩
    · rcases hB.all u hut hum hrun with h1 | ⟨m, hm, hmm, h1⟩
      · exact Or.inl h1
      · rcases List.mem_cons.1 hm with e | hm
        · subst e
          exfalso
          apply hno
          obtain ⟨_, j2, j3⟩ := (listI_inv hr hb).1 m (hB.list m List.mem_cons_self hmm).1 hmm u h1
          obtain ⟨_, ⟨st, ar, hst⟩, hfin⟩ := hrun
          refine ⟨by rw [h1]; simpa using hut, j2 st ar (hB.old _ hst), ?_⟩
          cases hfs : (s.g.nodes m).finiS with
          | false => rfl
          | true =>
            obtain ⟨k, d, src, hc⟩ := j3 hfs
            exact absurd hc (hfin k d src)
        · exact Or.inr ⟨m, hm, hmm, h1⟩
    · obtain ⟨h1, h2⟩ := hB.main hns
      exact ⟨h1, fun hm => h2 (List.mem_cons_of_mem _ hm)⟩

/-- The end of the list. -/
theorem brTodo_end {s : S} (hr : ReachA Clean s) (hb : born s.g.tr = false) {t : Tid}
    {l : List (Option Tid)} {b : Hist} (hB : BrTodo s.g t l b []) :
    (∀ sig, s.g.main.self ≠ some t → BrEnd (s.g.emit t (.kill s.g.main.self (some sig))) t
      (s.g.main.self :: l) b) ∧ (s.g.main.self = some t → BrEnd s.g t l b) := by
  have hmain := ((tsd_inv hr).1.2 hB.used hb).1
  have hall : ∀ u, u ≠ t → u ≠ mainOf s.g.tr → runsIn u b s.g.tr → 1 ≤ l.count (some u) :=
    fun u hut hum hrun => by
      rcases hB.all u hut hum hrun with h1 | ⟨m, hm, _⟩
      · exact h1
      · cases hm
  rw [hmain]
  refine ⟨fun sig hne => ?_, fun he => ?_⟩
  · have hmo : mainOf (s.g.emit t (.kill (some (mainOf s.g.tr)) (some sig))).tr = mainOf s.g.tr :=
      mainOf_cons _ _ rfl
    refine ⟨fun u hu => ?_, fun u hut hum hrun => ?_, fun _ => ?_, fun hns => ?_, fun x hx => ?_⟩
    · rw [hmo] at hu
      rw [List.count_cons_of_ne (by simpa using Ne.symm hu)]
      exact (hB.once u hu).1
    · rw [hmo] at hum
      have := hall u hut hum (runsIn_mono (fun e he => List.mem_cons_of_mem _ he) hrun)
      rw [List.count_cons]; omega
    · rw [hmo, List.count_cons_self]; omega
    · rw [hmo, List.count_cons_self, (hB.main (fun w hw => hns w (List.mem_cons_of_mem _ hw))).1]
      exact Nat.le_refl _
    · rw [hmo]
      rcases List.mem_cons.1 hx with e | hx
      · subst e
        exact ⟨_, rfl, fun e => hne (by rw [e]), Or.inl rfl⟩
      · obtain ⟨w, h1, h2, h3⟩ := hB.known x hx
        exact ⟨w, h1, h2, h3.imp_right (fun ⟨k, h⟩ => ⟨k, List.mem_cons_of_mem _ h⟩)⟩
  · injection he with he
    refine ⟨fun u hu => (hB.once u hu).1, hall, fun h1 => absurd he.symm h1, fun hns => ?_, hB.known⟩
    rw [(hB.main hns).1]; exact Nat.zero_le _

theorem brF_of {g : G} {t : Tid} {f : Frame} (h1 : ∀ sig l, f ≠ .br1 sig l)
    (h2 : ∀ sig, f ≠ .br2 sig) (h3 : ∀ sig n l, f ≠ .brKill sig n l) : BrF g t f := by
  cases f <;> first
    | trivial | exact absurd rfl (h1 _ _) | exact absurd rfl (h2 _) | exact absurd rfl (h3 _ _ _)

/-- No event of monitor_broadcast_signal. -/
theorem brSpec_keep {g g' : G} {t : Tid} {ok : Bool} {v : Nat} {f : Frame} {nx : Next}
    {sp : Option Frame} (h : fstep g t ok v f = some (g', nx, sp)) (h0 : ∀ sig, f ≠ .br0 sig)
    (h2 : ∀ sig, f ≠ .br2 sig) (hA : Always brSpec g.tr) : Always brSpec g'.tr := by
  cases f <;> fstep_cases h <;> first
    | exact absurd rfl (h0 _)
    | exact absurd rfl (h2 _)
    | exact hA
    | exact ⟨trivial, hA⟩
    | exact ⟨trivial, trivial, hA⟩
    | (simp only [G.emit, G.upd, resetList_tr]; exact ⟨trivial, hA⟩)

theorem broad_inv {s : S} (hs : ReachA Clean s) :
    Always brSpec s.g.tr ∧ ∀ u f, f ∈ s.th u → BrF s.g u f := by
  refine frames_invA (A := Clean) (GI := fun g => Always brSpec g.tr) (FI := BrF) trivial trivial
    ?_ (fun _ h => h) (fun g u f h => ?_) ?_ ?_ ?_ ?_ hs
  · intro s t f rest ok v g' nx sp hr hA ht hG hF h
    have hft : f ∈ s.th t := by rw [ht]; exact List.mem_cons_self
    have hmem := mem_of_fstep h
    have hmo := mainOf_fstep h
    refine ⟨?_, ?_, ?_, ?_, ?_, ?_⟩
    · by_cases e0 : ∃ sig, f = .br0 sig
      · obtain ⟨sig, e0⟩ := e0
        subst e0
        have hbF := (base_inv hr).2 t _ hft
        fstep_cases h
        · exact ⟨⟨_, rfl⟩, trivial, hG⟩
        · exact ⟨trivial, hG⟩
        · rename_i hu
          have hu : s.g.hasUsed = false := Bool.eq_false_iff.2 hu
          have hmo1 : mainOf (s.g.emit t (.brCall sig)).tr = mainOf s.g.tr := mainOf_cons _ _ rfl
          have htm : t = mainOf s.g.tr := by
            by_cases e : t = mainOf s.g.tr
            · exact e
            · rw [(hbF.1 e).1] at hu; cases hu
          have hb : born s.g.tr = false := not_born hr ht rfl
          refine ⟨⟨fun _ => ⟨[], own s.g.tr, ?_⟩, fun l b hc => ?_⟩, trivial, hG⟩
          · simp [G.emit, own, Ev.isForked, callOf]
          · simp [G.emit, own, Ev.isForked, callOf] at hc
            obtain ⟨c1, c2⟩ := hc
            subst c1; subst c2
            refine ⟨fun u _ hum hrun => ?_, fun u _ => by simp, fun h => ?_, fun _ => by simp,
              fun x hx => by cases hx⟩
            · exfalso
              rw [hmo1] at hum
              obtain ⟨⟨k, hk⟩, _, hfin⟩ := hrun
              obtain ⟨n, n1, n2, _⟩ := (listI_inv hr hb).2 u k hum hk
                (fun k d src hc => hfin k d src (List.mem_cons_of_mem _ hc))
              exact n2 (((base_inv hr).1.2 hu).1 n n1)
            · rw [hmo1] at h
              exact absurd htm h
      · by_cases e2 : ∃ sig, f = .br2 sig
        · obtain ⟨sig, e2⟩ := e2
          subst e2
          obtain ⟨i1, i2⟩ := hF t _ hft
          fstep_cases h
          refine ⟨⟨fun hst => ?_, fun l b hc => ?_⟩, hG⟩
          · have hst : startedBy s.g.tr = none := hst
            show ∃ l b, callOf t 0 (own s.g.tr) = some (l, b)
            rw [own_started hst]
            cases hc : callOf t 0 s.g.tr with
            | none => exact absurd hc i1
            | some x => exact ⟨x.1, x.2, rfl⟩
          · have hB := i2 l b hc
            refine ⟨fun u hut hum hrun => ?_, hB.once, hB.main1, hB.main, hB.known⟩
            have h1 := hB.once u hum
            have h2 := hB.all u hut hum hrun
            omega
        · exact brSpec_keep h (fun sig e => e0 ⟨sig, e⟩) (fun sig e => e2 ⟨sig, e⟩) hG
    · intro u h' hm hrest
      have hi := hF u h' hm
      by_cases hbr : tokLock h' = 1
      · obtain ⟨lk, x1, x2⟩ := lock_excl hr hm hbr
        have hf0 : tokLock f = 0 := by
          by_cases e : u = t
          · subst e; exact x2 f rest ht (hrest rfl)
          · exact x1 t f hft (fun e2 => e e2.symm)
        obtain ⟨c1, c2⟩ := callOf_keep h (t := u) (fun _ => Or.inl hf0) (fun _ _ _ => lk) 0
        cases h' <;> first | trivial | skip
        · obtain ⟨i1, i2⟩ := hi
          refine ⟨by rw [c2]; exact i1, fun l b hc => ?_⟩
          rw [c1] at hc
          exact brTodo_keep hr ht h (born_of_call hc) hf0 (i2 l b hc)
        · obtain ⟨i1, i2⟩ := hi
          refine ⟨by rw [c2]; exact i1, fun l b hc => ?_⟩
          rw [c1] at hc
          have hb := born_of_call hc
          obtain ⟨j1, j2, j3⟩ := i2 l b hc
          refine ⟨brTodo_keep hr ht h hb hf0 j1, by rw [hmo]; exact j2, fun hnm => ?_⟩
          rw [(list_self_keep hr ht h hb hnm (j1.list _ List.mem_cons_self hnm).1
            (fun e => by subst e; cases hf0)).1]
          exact j3 hnm
        · obtain ⟨i1, i2⟩ := hi
          refine ⟨by rw [c2]; exact i1, fun l b hc => ?_⟩
          rw [c1] at hc
          exact brEnd_keep hmem hmo (i2 l b hc)
      · exact brF_of (fun sig l e => by subst e; exact hbr rfl) (fun sig e => by subst e; exact hbr rfl)
          (fun sig n l e => by subst e; exact hbr rfl)
    · intro e; subst e
      refine brF_of (fun sig l e => ?_) (fun sig e => ?_) (fun sig n l e => ?_)
      · subst e; cases l <;> fstep_cases h
      · subst e; fstep_cases h
      · subst e; fstep_cases h
    · intro l e h' hm'
      subst e
      by_cases e0 : ∃ sig, f = .br0 sig
      · obtain ⟨sig, e0⟩ := e0
        subst e0
        have hb : born s.g.tr = false := not_born hr ht rfl
        fstep_cases h
        · cases hm'
        · rename_i hu _
          rw [List.mem_singleton] at hm'
          subst hm'
          refine ⟨by simp [G.emit, callOf], fun l b hc => ?_⟩
          simp [G.emit, own, Ev.isForked, callOf] at hc
          obtain ⟨c1, c2⟩ := hc
          subst c1; subst c2
          exact brTodo_start hr ht hb hu _ rfl rfl rfl sig rfl
        · cases hm'
      · by_cases e1 : ∃ sig todo, f = .br1 sig todo
        · obtain ⟨sig, todo, e1⟩ := e1
          subst e1
          obtain ⟨i1, i2⟩ := hF t _ hft
          cases todo with
          | nil =>
            fstep_cases h
            · rename_i hne
              rw [List.mem_singleton] at hm'
              subst hm'
              refine ⟨?_, fun l b hc => ?_⟩
              · simp only [G.emit, callOf, if_true]
                cases hc : callOf t 0 s.g.tr with
                | none => exact absurd hc i1
                | some x => simp
              · simp only [G.emit, own, Ev.isForked, Bool.false_eq_true, if_false, callOf, if_true] at hc
                cases hc0 : callOf t 0 (own s.g.tr) with
                | none => rw [hc0] at hc; cases hc
                | some x =>
                  obtain ⟨l0, b0⟩ := x
                  rw [hc0] at hc
                  injection hc with hc
                  injection hc with c1 c2
                  subst c1; subst c2
                  exact (brTodo_end hr (born_of_call hc0) (i2 _ _ hc0)).1 sig hne
            · rename_i hne
              rw [List.mem_singleton] at hm'
              subst hm'
              refine ⟨i1, fun l b hc => ?_⟩
              exact (brTodo_end hr (born_of_call hc) (i2 _ _ hc)).2 (by simpa using hne)
          | cons n todo =>
            fstep_cases h
            · rename_i hne
              rw [List.mem_singleton] at hm'
              subst hm'
              refine ⟨i1, fun l b hc => ⟨i2 l b hc, fun e hc2 => ?_, fun _ => hne.1⟩⟩
              subst e
              have hm0 := ((tsd_inv hr).1.2 (i2 l b hc).used (born_of_call hc)).1
              exact hne.1 (by rw [hc2]; exact hm0)
            · rename_i hne
              rw [List.mem_singleton] at hm'
              subst hm'
              refine ⟨i1, fun l b hc => ?_⟩
              exact (brTodo_step hr (born_of_call hc) (i2 _ _ hc)).2 hne
        · by_cases e3 : ∃ sig n todo, f = .brKill sig n todo
          · obtain ⟨sig, n, todo, e3⟩ := e3
            subst e3
            obtain ⟨i1, i2⟩ := hF t _ hft
            fstep_cases h
            · rw [List.mem_singleton] at hm'
              subst hm'
              refine ⟨?_, fun l b hc => ?_⟩
              · simp only [G.emit, callOf, if_true]
                cases hc : callOf t 0 s.g.tr with
                | none => exact absurd hc i1
                | some x => simp
              · simp only [G.emit, own, Ev.isForked, Bool.false_eq_true, if_false, callOf, if_true] at hc
                cases hc0 : callOf t 0 (own s.g.tr) with
                | none => rw [hc0] at hc; cases hc
                | some x =>
                  obtain ⟨l0, b0⟩ := x
                  rw [hc0] at hc
                  injection hc with hc
                  injection hc with c1 c2
                  subst c1; subst c2
                  obtain ⟨j1, j2, j3⟩ := i2 _ _ hc0
                  refine (brTodo_step hr (born_of_call hc0) j1).1 sig ?_
                  by_cases e : n = .main
                  · subst e
                    have hm0 := ((tsd_inv hr).1.2 j1.used (born_of_call hc0)).1
                    intro hc3
                    have hm0 : (s.g.nodes .main).self = some (mainOf s.g.tr) := hm0
                    rw [hc3] at hm0
                    injection hm0 with hm0
                    exact j2 rfl hm0
                  · exact j3 e
          · have : (∀ sig l, h' ≠ .br1 sig l) ∧ (∀ sig, h' ≠ .br2 sig) ∧
                ∀ sig n l, h' ≠ .brKill sig n l := by
              clear hF hG hmem hmo hft ht hA
              cases f <;> first
                | exact absurd ⟨_, rfl⟩ e0
                | exact absurd ⟨_, _, rfl⟩ e1
                | exact absurd ⟨_, _, _, rfl⟩ e3
                | skip
              all_goals
                fstep_cases h <;>
                simp only [List.mem_cons, List.not_mem_nil, or_false] at hm' <;>
                (try (rcases hm' with hm' | hm')) <;> (try subst hm') <;> first
                | exact ⟨fun _ _ e => (by cases e), fun _ e => (by cases e), fun _ _ _ e => (by cases e)⟩
                | (cases hm'; done)
                | (split at hm' <;> simp at hm'; subst hm'; exact ⟨fun _ _ e => (by cases e), fun _ e => (by cases e), fun _ _ _ e => (by cases e)⟩)
            exact brF_of this.1 this.2.1 this.2.2
    · intro h' e
      clear hF hG hmem hmo hft ht hA
      cases f <;> fstep_cases h <;> cases e <;> trivial
    · intro e h' hm'
      rcases unwound_cases rest with h1 | ⟨_, n, _, _, h1⟩ <;> rw [h1] at hm' <;> simp at hm'
      · subst hm'; trivial
      · rcases hm' with hm' | hm' <;> subst hm' <;> trivial
  · cases f <;> first
      | trivial
      | exact ⟨h.1, fun l b hc =>
          let ⟨a1, a2, a3, a4, a5, a6, a7⟩ := h.2 l b hc
          ⟨a1, a2, a3, a4, a5, a6, a7⟩⟩
      | exact ⟨h.1, fun l b hc =>
          let ⟨a1, a2, a3, a4, a5⟩ := h.2 l b hc
          ⟨a1, a2, a3, a4, a5⟩⟩
      | exact ⟨h.1, fun l b hc =>
          let ⟨⟨a1, a2, a3, a4, a5, a6, a7⟩, b1, b2⟩ := h.2 l b hc
          ⟨⟨a1, a2, a3, a4, a5, a6, a7⟩, b1, b2⟩⟩
  · intro s t i h _ _ _ _ _ _ _ hp _
    cases h <;> first | trivial | (simp [Frame.pushable] at hp; done)
  · intro s t _ _ _ _ _ h' hm'
    rcases unwound_cases (s.th t) with h1 | ⟨_, n, _, _, h1⟩ <;> rw [h1] at hm' <;> simp at hm'
    · subst hm'; trivial
    · rcases hm' with hm' | hm' <;> subst hm' <;> trivial
  · intro s t c d rest hr hA ht hG hF
    refine ⟨⟨trivial, hG⟩, fun h' hm' => ?_⟩
    rcases List.mem_cons.1 hm' with e | hm'
    · subst e; trivial
    rcases List.mem_cons.1 hm' with e | hm'
    · subst e; trivial
    have hi := hF t h' (by rw [ht]; exact List.mem_cons_of_mem _ hm')
    cases h' <;> first | trivial | skip
    all_goals
      refine ⟨?_, fun l b hc => ?_⟩
      · show callOf t 0 ((t, _) :: s.g.tr) ≠ none
        simp only [callOf, if_true]; exact hi.1
      · simp [G.emit, own, Ev.isForked, callOf] at hc
  · intro s t rest hr hA ht hG hF
    refine ⟨⟨trivial, hG⟩, fun h' hm' => ?_⟩
    rcases List.mem_cons.1 hm' with e | hm'
    · subst e; trivial
    have hi := hF t h' (by rw [ht]; exact List.mem_cons_of_mem _ hm')
    cases h' <;> first | trivial | skip
    all_goals
      refine ⟨?_, fun l b hc => ?_⟩
      · show callOf t 0 ((t, _) :: s.g.tr) ≠ none
        simp only [callOf, if_true]; exact hi.1
      · simp [G.emit, own, Ev.isForked, callOf] at hc

end Libmonitor.Proc
