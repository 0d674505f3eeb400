import Verif.Proc.Create
import Verif.Proc.ChildExit
/-!
# monitor_disable_new_threads
-/

namespace Libmonitor.Proc

theorem disabled_cons (t u : Tid) {e : Ev} (tr : Hist) (h : e.isForked = false)
    (h' : ∀ b, e ≠ .ignoring b) : disabled t ((u, e) :: tr) = disabled t tr := by
  cases e <;> first | rfl | (exact absurd rfl (h' _)) | (cases h; done)

theorem disabled_other {t u : Tid} (b : Bool) (tr : Hist) (h : u ≠ t) :
    disabled t ((u, .ignoring b) :: tr) = disabled t tr := by
  simp [disabled, h]

theorem disabled_known {t : Tid} {tr : Hist} (h : disabled t tr = true) :
    t = mainOf tr ∨ ∃ k, (t, .linked k) ∈ tr := by
  induction tr with
  | nil => cases h
  | cons x tr ih =>
    obtain ⟨u, e⟩ := x
    have keep : e.isForked = false → disabled t tr = true →
        t = mainOf ((u, e) :: tr) ∨ ∃ k, (t, .linked k) ∈ (u, e) :: tr := by
      intro h1 h2
      rw [mainOf_cons u tr h1]
      exact (ih h2).imp_right (fun ⟨k, hk⟩ => ⟨k, List.mem_cons_of_mem _ hk⟩)
    by_cases hi : ∃ b, e = .ignoring b
    · obtain ⟨b, hi⟩ := hi
      subst hi
      by_cases hu : u = t
      · subst hu
        simp only [disabled, if_true, Bool.and_eq_true, Bool.or_eq_true, decide_eq_true_eq,
          List.any_eq_true] at h
        rcases h.2 with h | ⟨x, h1, h2, h3⟩
        · exact Or.inl h
        · obtain ⟨w, e⟩ := x
          simp only at h2 h3
          subst h2
          cases e <;> first | (cases h3; done) | skip
          exact Or.inr ⟨_, List.mem_cons_of_mem _ h1⟩
      · rw [disabled_other b tr hu] at h
        exact keep rfl h
    · cases hf : e.isForked with
      | false => rw [disabled_cons t u tr hf (fun b hb => hi ⟨b, hb⟩)] at h; exact keep hf h
      | true =>
        cases e <;> first | (cases hf; done) | skip
        simp only [disabled] at h
        split at h
        · rename_i hh; exact Or.inl hh.1.symm
        · cases h

theorem disabled_fstep {g g' : G} {t : Tid} {ok : Bool} {v : Nat} {f : Frame} {nx : Next}
    {sp : Option Frame} (h : fstep g t ok v f = some (g', nx, sp)) (u : Tid)
    (hq : u = t → ∀ b, f ≠ .qIgnore b) : disabled u g'.tr = disabled u g.tr := by
  cases f <;> fstep_cases h <;> first
    | rfl
    | (simp only [G.emit, G.upd, resetList_tr]; rfl)
    | (exact disabled_other _ _ (fun e => hq e.symm _ rfl))

/-- Only these steps change the mark in a record. -/
theorem ignore_keep {g g' : G} {t : Tid} {ok : Bool} {v : Nat} {f : Frame} {nx : Next}
    {sp : Option Frame} (h : fstep g t ok v f = some (g', nx, sp)) {n : NodeId}
    (h0 : f.resetting = true → n ≠ .main) (h1 : f ≠ .ul1 n)
    (h2 : ∀ b, f = .qIgnore b → getTn g t ≠ some n)
    (h3 : ∀ a c my st ar d, f = .mk1 c my st ar d → alloc g ok = some a → a.n ≠ n) :
    (g'.nodes n).ignore = (g.nodes n).ignore := by
  cases f <;> fstep_cases h <;> first
    | rfl
    | (simp only [G.emit, G.upd, listInit]; split <;> rfl)
    | (simp only [G.emit, G.upd, listInit]; split
       · rename_i e; subst e; exact absurd rfl h1
       · rfl)
    | (simp only [G.emit, G.upd, listInit]; split
       · rename_i e; subst e; exact absurd (by assumption) (h2 _ rfl)
       · rfl)
    | (simp only [G.emit, G.upd, listInit]; split
       · rename_i e; exact absurd e.symm (h3 _ _ _ _ _ _ rfl (by assumption))
       · rfl)
    | skip
  all_goals
    have := h0 (by simp [Frame.resetting])
    simp only [G.emit, G.upd, resetList, if_neg this]
    split <;> (try simp only [if_neg this])

def IgnG (g : G) : Prop :=
  (disabled (mainOf g.tr) g.tr = true → g.main.ignore = true ∧
    (born g.tr = true → getTn g (mainOf g.tr) = some .main))

def IgnF (g : G) (u : Tid) (f : Frame) : Prop :=
  u ≠ mainOf g.tr → disabled u g.tr = true → ∀ n, f.thr = some n → (g.nodes n).ignore = true

theorem ignF_none {g : G} {u : Tid} {f : Frame} (h : f.thr = none) : IgnF g u f :=
  fun _ _ n e => absurd e (by rw [h]; simp)

theorem ign_inv {s : S} (hs : ReachA Clean s) : IgnG s.g ∧ ∀ u f, f ∈ s.th u → IgnF s.g u f := by
  refine frames_invA (A := Clean) (GI := IgnG) (FI := IgnF) (fun h => by cases h) (ignF_none rfl) ?_
    (fun _ h => h) (fun _ _ _ h => h) ?_ ?_ ?_ ?_ hs
  · intro s t f rest ok v g' nx sp hr hA ht hG hF h
    have hft : f ∈ s.th t := by rw [ht]; exact List.mem_cons_self
    have hmo := mainOf_fstep h
    have hall : ∀ n, n ≠ .main → f ≠ .ul1 n → (∀ b, f = .qIgnore b → getTn s.g t ≠ some n) →
        availRec s.g n = 0 → (g'.nodes n).ignore = (s.g.nodes n).ignore := by
      intro n hn h1 h2 h3
      refine ignore_keep h (fun _ => hn) h1 h2 (fun a c my st ar d e ha han => ?_)
      subst han
      have := alloc_pos (arr_inv hr) ha
      omega
    have hq : ∀ b, f = .qIgnore b → ∀ n, getTn s.g t = some n → disabled t g'.tr = true →
        (g'.nodes n).ignore = true := by
      intro b e n hn hd
      subst e
      fstep_cases h
      · rename_i hg; rw [hg] at hn; cases hn
      · rename_i hg
        rw [hg] at hn; injection hn with hn; subst hn
        simp only [G.emit, disabled, if_true, Bool.and_eq_true] at hd
        simp [G.emit, G.upd, hd.1]
    refine ⟨?_, ?_⟩
    · intro hd
      rw [hmo] at hd
      by_cases hqm : mainOf s.g.tr = t ∧ ∃ b, f = .qIgnore b
      · obtain ⟨e, b, e'⟩ := hqm
        have hres : f.resetting = false := by rw [e']; rfl
        refine ⟨hq b e' _ (getTn_main hr ht hres e.symm) (by rw [← e]; exact hd), fun hb => ?_⟩
        rw [born_keep h (not_born hr ht hres)] at hb; cases hb
      · have hd0 := hd
        rw [disabled_fstep h _ (fun e b e' => hqm ⟨e, b, e'⟩)] at hd0
        obtain ⟨k1, k2⟩ := hG hd0
        cases hres : f.resetting with
        | true =>
          have hb := ((base_inv hr).2 t f hft).2.1 hres
          obtain ⟨b1, b2, b3, b4⟩ := birth_step hr ht hb
          have k2 := k2 hb
          rw [← b1] at k2
          have hrm : resetMain s.g t = s.g.main := by simp [resetMain, k2]
          clear hall hq ht hft hmo hqm
          cases f <;> first | (cases hres; done) | skip
          · fstep_cases h
            · refine ⟨k1, fun _ => ?_⟩
              rw [← b1]; exact k2
            · exact absurd hres (by assumption)
            · exact absurd hres (by assumption)
          · fstep_cases h
            refine ⟨?_, fun hb => by cases hb⟩
            simp only [G.main, G.emit, G.upd, resetList, if_true]
            split
            · simp only [if_true]; rw [hrm]; exact k1
            · exact k1
          · fstep_cases h
            refine ⟨?_, fun hb => by cases hb⟩
            simp only [G.main, G.emit, resetList]
            split
            · simp only [if_true]; rw [hrm]; exact k1
            · exact k1
        | false =>
          have hnb := not_born hr ht hres
          refine ⟨?_, fun hb => ?_⟩
          · have : (g'.nodes .main).ignore = (s.g.nodes .main).ignore := by
              refine ignore_keep h (fun e => by rw [hres] at e; cases e) ?_ ?_ ?_
              · intro e; subst e; exact claims_ne_main hr hft (Or.inr rfl) rfl
              · intro b e hg
                rcases getTn_mine hr hnb (by rw [ht]; simp) hg with ⟨_, e2⟩ | ⟨e2, _⟩
                · exact hqm ⟨e2.symm, b, e⟩
                · exact e2 rfl
              · intro a c my st ar d e ha
                exact (alloc_ne_main (rec_inv hr).1 ha).1
            show (g'.nodes .main).ignore = true
            rw [this]; exact k1
          · rw [born_keep h hnb] at hb; cases hb
    · have hold : ∀ u h', h' ∈ s.th u → (u = t → h' ∈ rest) → IgnF g' u h' := by
        intro u h' hm hor hu hd n hn
        rw [hmo] at hu
        have hc : claims s.g u h' n := Or.inr ⟨hu, hn⟩
        have hnm := claims_ne_main hr hm (Or.inr hn)
        by_cases hqu : u = t ∧ ∃ b, f = .qIgnore b
        · obtain ⟨e, b, e'⟩ := hqu
          subst e
          have hk := disabled_known (t := u) (tr := g'.tr) hd
          rw [hmo] at hk
          rcases hk with hk | ⟨k, hk⟩
          · exact absurd hk hu
          · have hk : (u, .linked k) ∈ s.g.tr := by
              subst e'
              fstep_cases h <;>
                (simp only [G.emit, G.upd, List.mem_cons, Prod.mk.injEq, reduceCtorEq, and_false,
                  false_or] at hk; exact hk)
            obtain ⟨m, hm'⟩ := getTn_linked hr ht (by rw [e']; simp) hu hk
            obtain ⟨f', h1, h2, _⟩ := getTn_rec hr ht (by rw [e']; simp) hu hm'
            have hnb0 : ∀ f0 ∈ s.th u, ∀ n0, f0.thr = some n0 → f0 ≠ .bt0 n0 := by
              intro f0 hf0 n0 e0 e3
              subst e3
              have := occursBy_pos (p := fun e => e.isLinked || e.isRefused) hk rfl
              have := toks_mem (tok := tokLink) hf0
              have := life_linked hr u
              have : tokLink (.bt0 n0) = 1 := rfl
              omega
            have e1 := ((tsd_inv hr).2 u f' h1).2 m h2 (hnb0 _ h1 _ h2) hu
            have e2 := ((tsd_inv hr).2 u h' hm).2 n hn (hnb0 _ hm _ hn) hu
            rw [e1] at e2; injection e2 with e2; subst e2
            exact hq b e' _ hm' hd
        · rw [disabled_fstep h u (fun e b e' => hqu ⟨e, b, e'⟩)] at hd
          rw [hall n hnm ?_ ?_ (claims_avail hr hnm hm hc)]
          · exact hF u h' hm hu hd n hn
          · intro e
            subst e
            have hc' : claims s.g t (.ul1 n) n := Or.inr ⟨thr_ne_main hr hft rfl rfl, rfl⟩
            by_cases e : u = t
            · subst e; exact claims_rest hr ht (hor rfl) hnm hc hc'
            · exact e (claims_excl hr hnm hm hc hft hc').1
          · intro b e hg
            subst e
            by_cases e : u = t
            · exact hqu ⟨e, b, rfl⟩
            · rcases write_owner hr ht (ok := ok) hnm hg with ⟨f'', h1, h2⟩ | h1
              · exact e (claims_excl hr hnm hm hc h1 h2).1
              · rw [claims_avail hr hnm hm hc] at h1; omega
      have hunw : ∀ h ∈ unwound rest, IgnF g' t h := by
        intro h' hm'
        rcases unwound_cases rest with e | ⟨f', m, hf', ha, e⟩
        · rw [e, List.mem_singleton] at hm'; subst hm'
          exact ignF_none rfl
        · rw [e] at hm'
          rcases List.mem_cons.1 hm' with hm' | hm'
          · subst hm'
            intro hu hd n' e
            injection e with e2
            subst e2
            exact hold t f' (by rw [ht]; exact List.mem_cons_of_mem _ hf') (fun _ => hf') hu hd m
              (thr_of_armed ha).1
          · rw [List.mem_singleton] at hm'; subst hm'
            exact ignF_none rfl
      refine ⟨hold, ?_, ?_, ?_, fun _ => hunw⟩
      · intro e
        subst e
        have := hF t f hft
        cases f <;> fstep_cases h <;> first | exact ignF_none rfl | exact this
      · intro l e h' hm' hu hd n hn
        subst e
        rw [hmo] at hu
        have hfn := ((tsd_new h hm').2 n hn).2
        have hi := hF t f hft
        have hc : claims s.g t f n := Or.inr ⟨hu, hfn⟩
        have hnm := claims_ne_main hr hft (Or.inr hfn)
        have hnq : ∀ b, f ≠ .qIgnore b := by intro b e; subst e; cases hfn
        rw [disabled_fstep h t (fun _ => hnq)] at hd
        rw [hall n hnm ?_ (fun b e => absurd e (hnq b)) (claims_avail hr hnm hft hc)]
        · exact hi hu hd n hfn
        · intro e
          subst e
          fstep_cases h <;> cases hm'
      · intro h' e hu hd n hn
        subst e
        exfalso
        rcases disabled_known hd with e | ⟨k, hk⟩
        · exact hu e
        · have h0 := (life_linked' hr s.g.nextTid).2 (Nat.le_refl _)
          have hk : (s.g.nextTid, Ev.linked k) ∈ s.g.tr := by
            cases f <;> fstep_cases h <;>
              (simp only [G.emit, G.upd, List.mem_cons, Prod.mk.injEq, reduceCtorEq, and_false,
                false_or] at hk; exact hk)
          have := occursBy_pos (p := fun e => e.isLinked || e.isRefused) hk rfl
          omega
  · intro s t i h hr hA _ _ hF _ _ hp _
    cases h <;> simp [Frame.pushable] at hp <;> exact ignF_none rfl
  · intro s t hr hA _ hne hF h' hm'
    rcases unwound_cases (s.th t) with e | ⟨f', m, hf', ha, e⟩
    · rw [e, List.mem_singleton] at hm'; subst hm'
      exact ignF_none rfl
    · rw [e] at hm'
      rcases List.mem_cons.1 hm' with hm' | hm'
      · subst hm'
        intro hu hd n' e
        injection e with e2
        subst e2
        exact hF t f' hf' hu hd m (thr_of_armed ha).1
      · rw [List.mem_singleton] at hm'; subst hm'
        exact ignF_none rfl
  · intro s t c d rest hr hA ht hG hF
    refine ⟨fun hd => ?_, fun h hm hu => absurd rfl hu⟩
    have hmo : mainOf (s.g.emit t (.forked false)).tr = t := by simp [G.emit, mainOf, Ev.isForked]
    rw [hmo] at hd ⊢
    simp only [G.emit, disabled, true_and] at hd
    split at hd
    · rename_i e
      have hg := getTn_main hr ht rfl e
      rw [e] at hd
      exact ⟨(hG hd).1, fun _ => hg⟩
    · cases hd
  · intro s t rest hr hA ht hG hF
    refine ⟨fun hd => ?_, fun h hm hu => absurd rfl hu⟩
    have hmo : mainOf (s.g.emit t (.forked true)).tr = t := by simp [G.emit, mainOf, Ev.isForked]
    rw [hmo] at hd ⊢
    simp only [G.emit, disabled, true_and] at hd
    split at hd
    · rename_i e
      have hg := getTn_main hr ht rfl e
      rw [e] at hd
      exact ⟨(hG hd).1, fun _ => hg⟩
    · cases hd

theorem enabledIn_cons {tr : Hist} {t : Tid} {c : Nat} (e : Tid × Ev) (h : enabledIn tr t c) :
    enabledIn (e :: tr) t c := by
  obtain ⟨a, b, h1, h2⟩ := h
  exact ⟨e :: a, b, by rw [h1]; rfl, h2⟩

theorem enabledIn_mono {g g' : G} {t u : Tid} {c : Nat} {ok : Bool} {v : Nat} {f : Frame} {nx : Next}
    {sp : Option Frame} (h : fstep g t ok v f = some (g', nx, sp)) (he : enabledIn g.tr u c) :
    enabledIn g'.tr u c := by
  obtain ⟨es, hes⟩ := fstep_tr h
  obtain ⟨a, b, h1, h2⟩ := he
  exact ⟨es.map (fun e => (t, e)) ++ a, b, by rw [hes, h1]; simp, h2⟩

def enabledOrder (old : Hist) (t : Tid) : Ev → Prop
  | .preCreate c => enabledIn old t c
  | _ => True

def enabledFrame (g : G) (t : Tid) : Frame → Prop
  | .pc4 c .. | .pcSup0 c .. | .pcSup1 c .. | .pcSup c .. | .pc5 c .. => enabledIn g.tr t c
  | _ => True

theorem enabled_inv {s : S} (hs : ReachA Clean s) :
    Always enabledOrder s.g.tr ∧ ∀ u f, f ∈ s.th u → enabledFrame s.g u f := by
  refine frames_invA (A := Clean) (GI := fun g => Always enabledOrder g.tr) (FI := enabledFrame)
    trivial trivial ?_ (fun _ h => h) (fun _ _ _ h => ?_) ?_ ?_ ?_ ?_ hs
  · intro s t f rest ok v g' nx sp hr hA ht hG hF h
    have hft : f ∈ s.th t := by rw [ht]; exact List.mem_cons_self
    have hf := hF t f hft
    have hunw : ∀ h ∈ unwound rest, enabledFrame g' t h := by
      intro h' hm
      rcases unwound_cases rest with e | ⟨_, n, _, _, e⟩ <;> rw [e] at hm <;> simp at hm <;>
        (try (rcases hm with hm | hm)) <;> (try subst hm) <;> trivial
    have hpc3 : ∀ {c n st ar}, f = .pc3 c (some n) st ar → (s.g.nodes n).ignore = false →
        enabledIn s.g.tr t c := by
      intro c n st ar e hig
      subst e
      refine ⟨[], s.g.tr, rfl, ⟨st, ar, (life_order hr).2 t _ hft⟩, ?_⟩
      rcases held_inv hr hft (n := n) rfl with ⟨e1, e2⟩ | ⟨e1, e2, e3⟩
      · subst e1
        refine ⟨?_, Or.inl e2⟩
        cases hd : disabled t s.g.tr with
        | false => rfl
        | true =>
          rw [e2] at hd
          have := ((ign_inv hr).1 hd).1
          rw [G.main, hig] at this; cases this
      · obtain ⟨f', h1, h2, h3, h4⟩ := mine_claims hr (Or.inr ⟨e1, e2, e3⟩) e1 (by rw [ht]; simp)
          (by rw [ht]; simp)
        refine ⟨?_, Or.inr ?_⟩
        · cases hd : disabled t s.g.tr with
          | false => rfl
          | true =>
            have := (ign_inv hr).2 t f' h1 e2 hd n h2
            rw [hig] at this; cases this
        · obtain ⟨w, c', d, k, _⟩ := ((recI_inv hr h1).2 n e2 h2).spawned
          exact ⟨w, c', _, _, d, n, k⟩
    refine ⟨?_, ?_, ?_, ?_, ?_, fun _ => hunw⟩
    · clear hunw ht hF
      cases f <;> fstep_cases h <;> first
        | exact hG
        | exact ⟨trivial, hG⟩
        | exact ⟨trivial, trivial, hG⟩
        | (simp only [G.emit, G.upd, resetList_tr]; exact ⟨trivial, hG⟩)
        | exact ⟨hf, hG⟩
    · intro u h' hm _
      have hi := hF u h' hm
      cases h' <;> first | trivial | exact enabledIn_mono h hi
    · intro e
      cases f <;> first
        | trivial
        | (fstep_cases h <;> cases e; done)
    · intro l e h' hm
      clear hunw hF ht
      have hmono := fun c (he : enabledIn s.g.tr t c) => enabledIn_mono (c := c) h he
      cases f <;> fstep_cases h <;> cases e <;>
        simp only [List.mem_cons, List.not_mem_nil, or_false] at hm <;>
        (try (rcases hm with hm | hm)) <;> (try subst hm) <;> first
        | trivial
        | (cases hm; done)
        | exact hmono _ hf
        | exact hpc3 rfl (by simpa using (by assumption : ¬ (s.g.nodes _).ignore = true))
    · intro h' e
      cases f <;> fstep_cases h <;> cases e <;> trivial
  · rename_i f'; cases f' <;> first | trivial | exact h
  · intro s t i h _ _ _ _ _ _ _ hp _
    cases h <;> first | trivial | (simp [Frame.pushable] at hp; done)
  · intro s t _ _ _ _ _ h hm
    rcases unwound_cases (s.th t) with e | ⟨_, n, _, _, e⟩ <;> rw [e] at hm <;> simp at hm <;>
      (try (rcases hm with hm | hm)) <;> (try subst hm) <;> trivial
  · intro s t c d rest hr _ ht hG hF
    refine ⟨⟨trivial, hG⟩, fun h hm => ?_⟩
    simp only [List.mem_cons] at hm
    rcases hm with hm | hm | hm
    · subst hm; trivial
    · subst hm; trivial
    · have hi := hF t h (by rw [ht]; exact List.mem_cons_of_mem _ hm)
      cases h <;> first | trivial | exact enabledIn_cons _ hi
  · intro s t rest hr _ ht hG hF
    refine ⟨⟨trivial, hG⟩, fun h hm => ?_⟩
    simp only [List.mem_cons] at hm
    rcases hm with hm | hm
    · subst hm; trivial
    · have hi := hF t h (by rw [ht]; exact List.mem_cons_of_mem _ hm)
      cases h <;> first | trivial | exact enabledIn_cons _ hi

/-- Init-thread is called in threads that are not ignored. -/
def initMade (old : Hist) (t : Tid) : Ev → Prop
  | .initThread _ _ => ∃ w c st ar d, madeBy old t w c st ar (some d)
  | _ => True

theorem initMade_inv {A : S → Lbl → Prop} {s : S} (hs : ReachA A s) : Always initMade s.g.tr := by
  refine glob_inv (GI := fun g => Always initMade g.tr) trivial ?_ (fun _ h => h)
    (fun _ h => ⟨trivial, h⟩) hs
  intro s t f rest ok v g' nx sp hr hA ht hG h
  have hlf := (life_order hr).2 t f (by rw [ht]; exact List.mem_cons_self)
  cases f <;> fstep_cases h <;> first
    | exact hG
    | exact ⟨trivial, hG⟩
    | exact ⟨trivial, trivial, hG⟩
    | (simp only [G.emit, G.upd, resetList_tr]; exact ⟨trivial, hG⟩)
    | skip
  obtain ⟨⟨w, c, st, ar, d, h1⟩, _⟩ := hlf
  exact ⟨⟨w, c, st, ar, d, _, h1⟩, hG⟩

/-- ... and fini-thread, apart from main. -/
def finiMade (old : Hist) (t : Tid) : Ev → Prop
  | .finiThread .. => t = mainOf old ∨ ∃ w c st ar d, madeBy old t w c st ar (some d)
  | _ => True

theorem finiMade_inv {s : S} (hs : ReachA Clean s) : Always finiMade s.g.tr := by
  refine glob_inv (GI := fun g => Always finiMade g.tr) trivial ?_ (fun _ h => h)
    (fun _ h => ⟨trivial, h⟩) hs
  intro s t f rest ok v g' nx sp hr hA ht hG h
  have hft : f ∈ s.th t := by rw [ht]; exact List.mem_cons_self
  cases f <;> fstep_cases h <;> first
    | exact hG
    | exact ⟨trivial, hG⟩
    | exact ⟨trivial, trivial, hG⟩
    | (simp only [G.emit, G.upd, resetList_tr]; exact ⟨trivial, hG⟩)
    | skip
  rename_i n src
  refine ⟨?_, hG⟩
  by_cases hu : t = mainOf s.g.tr
  · exact Or.inl hu
  · obtain ⟨hne, f', h1, h2, h3⟩ := owner_frame hr hft hu (fin_rec n src)
    obtain ⟨w, c, d, k, _⟩ := ((recI_inv hr h1).2 n hu h2).spawned
    exact Or.inr ⟨w, c, _, _, d, n, k⟩

/-- An ignored thread that has not entered its start routine is about to. -/
def Waits (g : G) (u : Tid) (l : List Frame) : Prop :=
  ∀ w c st ar, (w, .spawnIgn c u st ar) ∈ own g.tr → (u, .start st ar) ∈ g.tr ∨ .ign st ar ∈ l

theorem spawnIgn_new {g g' : G} {t : Tid} {ok : Bool} {v : Nat} {f : Frame} {nx : Next}
    {sp : Option Frame} (h : fstep g t ok v f = some (g', nx, sp)) {w u : Tid} {c st ar : Nat}
    (hm : (w, .spawnIgn c u st ar) ∈ own g'.tr) :
    (w, .spawnIgn c u st ar) ∈ own g.tr ∨ (u = g.nextTid ∧ sp = some (.ign st ar)) := by
  cases f <;> fstep_cases h <;> first
    | exact Or.inl hm
    | (simp only [G.emit, G.upd, resetList_tr, own, Ev.isForked, Bool.false_eq_true, if_false,
        List.mem_cons, Prod.mk.injEq, reduceCtorEq, and_false, false_or] at hm
       first
       | exact Or.inl hm
       | (rcases hm with ⟨_, h2⟩ | hm
          · injection h2 with h2 h3 h4 h5
            subst h3; subst h4; subst h5
            exact Or.inr ⟨rfl, rfl⟩
          · exact Or.inl hm))

theorem waits_inv {s : S} (hs : ReachA LetsStart s) (u : Tid) : Waits s.g u (s.th u) := by
  have nilW : ∀ {g : G} {u : Tid} {l : List Frame}, own g.tr = [] → Waits g u l := by
    intro g u l h w c st ar hm
    rw [h] at hm; cases hm
  refine (stack_invA (A := LetsStart) (GI := fun _ => True) (SI := Waits) trivial (nilW rfl)
    (fun _ _ => nilW rfl) ?_ (fun _ h => h) (fun _ _ _ h => h) ?_ ?_ ?_ ?_ hs).2 u
  · intro s t f rest ok v g' nx sp hr hA ht _ hS h
    have hmem := mem_of_fstep h
    have htn : t ≠ s.g.nextTid := by
      intro e; have := fresh_inv hr t (by rw [e]; exact Nat.le_refl _); rw [ht] at this; cases this
    have hown : ∀ {l}, (∀ st ar, .ign st ar ∈ rest → .ign st ar ∈ l) →
        (∀ st ar, f = .ign st ar → (t, .start st ar) ∈ g'.tr ∨ .ign st ar ∈ l) → Waits g' t l := by
      intro l h1 h2 w c st ar hm
      rcases spawnIgn_new h hm with hm | ⟨e, _⟩
      · rcases hS t w c st ar hm with k | k
        · exact Or.inl (hmem _ k)
        · rw [ht] at k
          rcases List.mem_cons.1 k with k | k
          · exact h2 st ar k.symm
          · exact Or.inr (h1 st ar k)
      · exact absurd e htn
    refine ⟨trivial, ?_, ?_, ?_, ?_, ?_⟩
    · intro u hu hor w c st ar hm
      rcases spawnIgn_new h hm with hm | ⟨e, e2⟩
      · exact (hS u w c st ar hm).imp_left (hmem _)
      · rcases hor with hor | hor
        · rw [hor] at e2; cases e2
        · exact absurd e hor
    · intro _
      exact hown (fun st ar h => List.mem_cons_of_mem _ h)
        (fun st ar e => Or.inr (by rw [e]; exact List.mem_cons_self))
    · intro e
      have hno : ∀ st ar, .ign st ar ∉ s.th t := by
        rcases hA with hA | hA
        · exfalso
          rw [ht] at hA
          obtain ⟨h1, h2⟩ := hA f rfl
          cases f <;> fstep_cases h <;> first | (cases e; done) | exact h1 rfl | exact h2 rfl
        · exact hA
      intro w c st ar hm
      rcases spawnIgn_new h hm with hm | ⟨e, _⟩
      · rcases hS t w c st ar hm with k | k
        · exact Or.inl (hmem _ k)
        · exact absurd k (hno st ar)
      · exact absurd e htn
    · intro l e
      refine hown (fun st ar h => List.mem_append_right _ h) (fun st ar e' => ?_)
      subst e'
      fstep_cases h
      exact Or.inl List.mem_cons_self
    · intro f0 e w c st ar hm
      rcases spawnIgn_new h hm with hm | ⟨_, e2⟩
      · exact absurd ((life_order hr).1.2.2.2 s.g.nextTid w c st ar none
          ((own_sublist _).subset hm)) (Nat.lt_irrefl _)
      · rw [e2] at e; injection e with e; subst e
        exact Or.inr List.mem_cons_self
  · intro s t i f rest pre _ _ ht _ hS _ _ _ w c st ar hm
    refine (hS t w c st ar hm).imp_right (fun h => ?_)
    rw [ht] at h
    exact List.mem_append_right _ h
  · intro s t _ hA _ _ hS w c st ar hm
    rcases hS t w c st ar hm with k | k
    · exact Or.inl k
    · exact absurd k (hA st ar)
  · intro s t c d rest _ _ _ _ _
    exact ⟨trivial, nilW rfl, fun _ _ => nilW rfl⟩
  · intro s t rest _ _ _ _ _
    exact ⟨trivial, nilW rfl, fun _ _ => nilW rfl⟩

end Libmonitor.Proc
