import Verif.Proc.SpecSupport
import Verif.Proc.OwnTsd
/-!
# Init-thread-support: helper lemmas
-/

namespace Libmonitor.Proc

/-- Init-thread-support has been called, has returned. -/
def supCalled (tr : Hist) : Prop := ∃ u, (u, Ev.support) ∈ tr

def supRet (tr : Hist) : Prop := ∃ u, (u, Ev.support) ∈ tr ∧ (u, Ev.supportRet) ∈ tr

/-- In pthread_create, up to the return of init-thread-support. -/
def Frame.region : Frame → Bool
  | .pc1 .. | .pc2 .. | .pc3 .. | .pc4 .. | .pcSup0 .. | .pcSup1 .. | .pcSup .. => true
  | _ => false

/-- ... with the record of the calling thread. -/
def Frame.recd : Frame → Bool
  | .pc3 _ my _ _ => my.isSome
  | .pc4 .. | .pcSup0 .. | .pcSup1 .. | .pcSup .. => true
  | _ => false

/-- Past init-thread-support, or in a thread that was made then. -/
def Frame.past : Frame → Bool
  | .pc5 .. | .pcPre .. | .mk0 .. | .mk1 .. | .pc6 .. | .pcStack .. | .pc7 .. | .bt0 _ | .bt1 _
  | .bt2 _ | .bt3 _ => true
  | _ => false

def Frame.isSup0 : Frame → Bool
  | .pcSup0 .. => true
  | _ => false

def Frame.isSup1 : Frame → Bool
  | .pcSup1 .. => true
  | _ => false

def Frame.isSup : Frame → Bool
  | .pcSup .. => true
  | _ => false

def Frame.isPc4 : Frame → Bool
  | .pc4 .. => true
  | _ => false

def SupF (g : G) (u : Tid) (f : Frame) : Prop :=
  (f.past = true → supRet g.tr) ∧ (f.recd = true → ¬ supRet g.tr → u = mainOf g.tr) ∧
  (f.isSup0 = true → g.supportDone = false) ∧
  (f.isSup1 = true → g.supportDone = true ∧ ¬ supCalled g.tr) ∧
  (f.isSup = true → g.supportDone = true ∧ (u, .support) ∈ g.tr ∧ ¬ supRet g.tr)

def SupS (g : G) (u : Tid) (l : List Frame) : Prop :=
  l.Pairwise (fun f p => p.sup = true → f.region = false) ∧ (∀ f ∈ l, SupF g u f) ∧
  (u = mainOf g.tr → g.supportDone = true → supRet g.tr ∨ ∃ p ∈ l, p.sup = true)

def SupG (g : G) : Prop :=
  (∀ u, (u, .supportRet) ∈ g.tr → supCalled g.tr) ∧ (supCalled g.tr → g.supportDone = true) ∧
  (¬ supRet g.tr → ∀ u n, g.tsd u = some n → n = .main) ∧ Always announcedFirst g.tr

theorem supF_none {g : G} {u : Tid} {f : Frame} (h1 : f.past = false) (h2 : f.recd = false) :
    SupF g u f := by
  have h3 : f.isSup0 = false ∧ f.isSup1 = false ∧ f.isSup = false := by
    cases f <;> simp_all [Frame.recd, Frame.isSup0, Frame.isSup1, Frame.isSup]
  simp [SupF, h1, h2, h3]

theorem supRet_called {tr : Hist} (h : supRet tr) : supCalled tr := by
  obtain ⟨u, h, _⟩ := h
  exact ⟨u, h⟩

theorem recd_of_sup {f : Frame} (h : f.sup = true) : f.recd = true ∧ f.region = true := by
  cases f <;> simp_all [Frame.sup, Frame.recd, Frame.region]

theorem sup_kinds {f : Frame} : (f.isSup0 = true → f.sup = true ∧ f.isSup1 = false ∧ f.isSup = false) ∧
    (f.isSup1 = true → f.sup = true ∧ f.isSup0 = false) ∧
    (f.isSup = true → f.sup = true ∧ f.isSup0 = false) ∧ (f.isPc4 = true → f.recd = true ∧ f.region = true) := by
  cases f <;> simp [Frame.isSup0, Frame.isSup1, Frame.isSup, Frame.sup, Frame.isPc4, Frame.recd, Frame.region]

theorem sup_not_resetting {f : Frame} (h : f.sup = true) : f.resetting = false := by
  cases f <;> simp_all [Frame.sup, Frame.resetting]

/-- Other steps do not matter. -/
theorem sup_quiet {g g' : G} {t : Tid} {ok : Bool} {v : Nat} {f : Frame} {nx : Next}
    {sp : Option Frame} (hf : f.sup = false) (h : fstep g t ok v f = some (g', nx, sp)) :
    g'.supportDone = g.supportDone ∧ ∀ u e, e = .support ∨ e = .supportRet →
      ((u, e) ∈ g'.tr ↔ (u, e) ∈ g.tr) := by
  cases f <;> first | (simp [Frame.sup] at hf; done) | skip
  all_goals fstep_cases h
  all_goals first
    | exact ⟨rfl, fun _ _ _ => Iff.rfl⟩
    | skip
  all_goals refine ⟨?_, fun u e he => ?_⟩
  all_goals first
    | rfl
    | (simp [G.emit, G.upd]; done)
    | (rcases he with he | he <;> subst he <;> simp [G.emit, G.upd]; done)
    | skip

theorem sup_new {g g' : G} {t : Tid} {ok : Bool} {v : Nat} {f : Frame} {l : List Frame}
    {sp : Option Frame} (hf : f.sup = false) (h : fstep g t ok v f = some (g', .go l, sp)) :
    (∀ p ∈ l, p.sup = true → l = [p] ∧ p.isSup0 = true ∧ f.isPc4 = true ∧ g.supportDone = false) ∧
    ∀ p ∈ l,
      (p.region = true → f.region = true ∨ f.enters = true) ∧
      (p.past = true → f.past = true ∨ (f.isPc4 = true ∧ g.supportDone = true)) ∧
      (p.recd = true → f.recd = true ∨ ((∃ st ar, f = .pc2 st ar) ∧ (getTn g t).isSome = true)) := by
  cases f <;> first | (simp [Frame.sup] at hf; done) | skip
  case pc2 st ar =>
    have e : getTn (g.emit t (.createCall g.nextCall st ar)) t = getTn g t := rfl
    simp only [fstep, cont, e] at h
    split at h <;> cases h <;> simp_all [Frame.sup, Frame.region, Frame.past, Frame.recd]
  all_goals fstep_cases h
  all_goals simp_all [Frame.sup, Frame.region, Frame.past, Frame.recd, Frame.isSup0, Frame.isPc4,
    Frame.enters]

theorem sup_spawn {g g' : G} {t : Tid} {ok : Bool} {v : Nat} {f f0 : Frame} {nx : Next}
    (h : fstep g t ok v f = some (g', nx, some f0)) :
    f0.recd = false ∧ f0.sup = false ∧ (f0.past = true → f.past = true) ∧ f.sup = false := by
  cases f <;> fstep_cases h <;> simp [Frame.recd, Frame.sup, Frame.past]

theorem sup_unwind {g g' : G} {t : Tid} {ok : Bool} {v : Nat} {f : Frame} {sp : Option Frame}
    (h : fstep g t ok v f = some (g', .unwind, sp)) : f.enters = true ∧ f.sup = false := by
  cases f <;> fstep_cases h <;> simp [Frame.enters, Frame.sup]

theorem sup_unwound (l : List Frame) :
    ∀ f ∈ unwound l, f.sup = false ∧ f.past = false ∧ f.recd = false := by
  intro f hf
  rcases unwound_cases l with e | ⟨_, n, _, _, e⟩ <;> rw [e] at hf <;> simp at hf
  · subst hf; exact ⟨rfl, rfl, rfl⟩
  · rcases hf with rfl | rfl <;> exact ⟨rfl, rfl, rfl⟩

theorem sup_pushable {f : Frame} (h : f.pushable = true) :
    f.sup = false ∧ f.region = false ∧ f.past = false ∧ f.recd = false := by
  cases f <;> simp_all [Frame.pushable, Frame.sup, Frame.region, Frame.past, Frame.recd]

theorem sup_forkOk {f : Frame} (h : f.forkOk = true) :
    f.sup = false ∧ f.region = false ∧ f.past = false ∧ f.recd = false := by
  cases f <;> simp_all [Frame.forkOk, Frame.making, Frame.thr, Frame.isBtApp, Frame.sup, Frame.region,
    Frame.past, Frame.recd]

theorem supF_keep {g g' : G} {u : Tid} {f : Frame} (h1 : g'.supportDone = g.supportDone)
    (h2 : ∀ u e, e = .support ∨ e = .supportRet → ((u, e) ∈ g'.tr ↔ (u, e) ∈ g.tr))
    (h3 : mainOf g'.tr = mainOf g.tr) (h : SupF g u f) : SupF g' u f := by
  have e1 : supCalled g'.tr ↔ supCalled g.tr := by
    simp only [supCalled, h2 _ _ (Or.inl rfl)]
  have e2 : supRet g'.tr ↔ supRet g.tr := by
    simp only [supRet, h2 _ _ (Or.inl rfl), h2 _ _ (Or.inr rfl)]
  simpa only [SupF, e1, e2, h1, h3, h2 _ _ (Or.inl rfl)] using h

/-- The data that names the calling thread's record. -/
theorem sup_tsd {g g' : G} {t : Tid} {ok : Bool} {v : Nat} {f : Frame} {nx : Next}
    {sp : Option Frame} (hp : f.past = false) (h : fstep g t ok v f = some (g', nx, sp))
    (hT : ∀ u n, g.tsd u = some n → n = .main) : ∀ u n, g'.tsd u = some n → n = .main := by
  by_cases hc : f.resetting = false ∧ (∀ st ar, f = .pc0 st ar → g.hasUsed = true)
  · rw [tsd_keep hc.1 (by intro n e; subst e; cases hp) hc.2 h]; exact hT
  · intro u n hu
    cases f <;> first
      | (refine absurd ⟨rfl, fun _ _ e => ?_⟩ hc; cases e; done)
      | skip
    all_goals fstep_cases h
    all_goals first
      | exact hT u n hu
      | skip
    · have hu : (resetList g t).tsd u = some n := hu
      unfold resetList at hu
      split at hu
      · cases hu
      · exact hT u n hu
    · have hu : (if u = t then some NodeId.main else none) = some n := hu
      split at hu
      · injection hu with hu; exact hu.symm
      · cases hu
    · have hu : (resetList g t).tsd u = some n := hu
      unfold resetList at hu
      split at hu
      · cases hu
      · exact hT u n hu

theorem sup_always {g g' : G} {t : Tid} {ok : Bool} {v : Nat} {f : Frame} {nx : Next}
    {sp : Option Frame} (hf : f.sup = false) (hp : f.past = true → supRet g.tr)
    (h : fstep g t ok v f = some (g', nx, sp)) (hA : Always announcedFirst g.tr) :
    Always announcedFirst g'.tr := by
  by_cases hp' : f.past = true
  · have hr := hp hp'
    cases f <;> first | (simp [Frame.sup] at hf; done) | (simp [Frame.past] at hp'; done) | skip
    all_goals fstep_cases h
    all_goals first
      | exact hA
      | exact ⟨⟨fun e => (by cases e), fun _ => hr⟩, hA⟩
  · cases f <;> first | (simp [Frame.sup] at hf; done) | exact absurd rfl hp' | skip
    all_goals fstep_cases h
    all_goals first
      | exact hA
      | exact ⟨⟨fun e => (by cases e), fun e => (by rcases e with ⟨_, e⟩ | ⟨_, _, e⟩ <;> cases e)⟩, hA⟩
      | exact ⟨⟨fun e => (by cases e), fun e => (by rcases e with ⟨_, e⟩ | ⟨_, _, e⟩ <;> cases e)⟩,
          ⟨fun e => (by cases e), fun e => (by rcases e with ⟨_, e⟩ | ⟨_, _, e⟩ <;> cases e)⟩, hA⟩
      | exact ⟨⟨fun e => (by cases e), fun e => (by rcases e with ⟨_, e⟩ | ⟨_, _, e⟩ <;> cases e)⟩,
          (by simpa [G.upd] using hA)⟩

theorem clean_of_sup {s : S} (hs : ReachA CleanSup s) : ReachA Clean s := by
  induction hs with
  | init => exact .init
  | next _ hA hn ih => exact .next ih hA.1 hn

theorem sup_fork {s : S} {t : Tid} {real : Bool} {l : List Frame} (hA : CleanSup s (.fork t))
    (hl : ∀ f ∈ l, f ∈ s.th t ∨ (f.sup = false ∧ f.past = false ∧ f.recd = false))
    (hG : SupG s.g) (hS : ∀ u, SupS s.g u (s.th u)) :
    SupG (s.g.emit t (.forked real)) ∧ SupS (s.g.emit t (.forked real)) t l ∧
      ∀ u, u ≠ t → SupS (s.g.emit t (.forked real)) u [] := by
  have hl' : ∀ f ∈ l, f.sup = false ∧ f.past = false ∧ f.recd = false := by
    intro f hf
    rcases hl f hf with h | h
    · have := sup_forkOk (hA.1 f h)
      exact ⟨this.1, this.2.2.1, this.2.2.2⟩
    · exact h
  have e1 : supCalled (s.g.emit t (.forked real)).tr ↔ supCalled s.g.tr := by
    simp [supCalled, G.emit]
  have e2 : supRet (s.g.emit t (.forked real)).tr ↔ supRet s.g.tr := by
    simp [supRet, G.emit]
  have e3 : mainOf (s.g.emit t (.forked real)).tr = t := by simp [G.emit, mainOf, Ev.isForked]
  obtain ⟨g0, g1, g2, g3⟩ := hG
  refine ⟨⟨fun u hu => e1.2 (g0 u (by simpa [G.emit] using hu)), fun h => g1 (e1.1 h), fun h => g2 (fun h' => h (e2.2 h')), ?_, g3⟩, ⟨?_, ?_, ?_⟩, ?_⟩
  · exact ⟨fun e => (by cases e), fun e => (by rcases e with ⟨_, e⟩ | ⟨_, _, e⟩ <;> cases e)⟩
  · exact List.Pairwise.imp_of_mem (fun _ hb _ hs => by rw [(hl' _ hb).1] at hs; cases hs)
      (List.pairwise_of_forall (R := fun _ _ => True) (fun _ _ => trivial))
  · exact fun f hf => supF_none (hl' f hf).2.1 (hl' f hf).2.2
  · intro _ hd
    rcases (hS (mainOf s.g.tr)).2.2 rfl hd with h | ⟨p, hp, hps⟩
    · exact Or.inl (e2.2 h)
    · rw [hA.2 p hp] at hps; cases hps
  · intro u hu
    refine ⟨List.Pairwise.nil, fun f hf => (by cases hf), fun e => ?_⟩
    rw [e3] at e; exact absurd e hu

theorem support_inv {s : S} (hs : ReachA CleanSup s) : SupG s.g ∧ ∀ u, SupS s.g u (s.th u) := by
  refine stack_invA (A := CleanSup) (GI := SupG) (SI := SupS) ?_ ?_ ?_ ?_ (fun _ h => h)
    (fun _ _ _ h => h) ?_ ?_ ?_ ?_ hs
  · exact ⟨fun _ h => (by cases h), fun ⟨_, h⟩ => (by cases h), fun _ _ _ h => (by cases h), trivial⟩
  · refine ⟨List.pairwise_singleton _ _, fun f hf => ?_, fun _ h => (by cases h)⟩
    rw [List.mem_singleton] at hf; subst hf; exact supF_none rfl rfl
  · intro u hu
    exact ⟨List.Pairwise.nil, fun f hf => (by cases hf), fun e => absurd e hu⟩
  · intro s t f rest ok v g' nx sp hr hA ht hG hS h
    have hc := clean_of_sup hr
    have hm := mainOf_fstep h
    obtain ⟨hP, hF, hE⟩ := hS t
    rw [ht] at hP hF hE
    rw [List.pairwise_cons] at hP
    obtain ⟨hP1, hP2⟩ := hP
    have hFf := hF f List.mem_cons_self
    obtain ⟨g0, g1, g2, g3⟩ := hG
    have hent : f.enters = true → ∀ h ∈ f :: rest, h.sup = false := by
      intro he
      have := hA.2
      dsimp only at this
      rw [ht] at this
      exact this f rfl he
    by_cases hsup : f.sup = true
    · -- the steps of `Frame.sup`
      have hreg := (recd_of_sup hsup).2
      have hrest : ∀ p ∈ rest, p.sup = false := by
        intro p hp
        cases e : p.sup with
        | false => rfl
        | true => have := hP1 p hp e; rw [hreg] at this; cases this
      have hnr : ¬ supRet s.g.tr := by
        obtain ⟨-, -, k0, k1, k2⟩ := hFf
        intro hret
        have hcal := supRet_called hret
        cases f <;> first | (simp [Frame.sup] at hsup; done) | skip
        · rw [k0 rfl] at g1; exact absurd (g1 hcal) (by simp)
        · exact (k1 rfl).2 hcal
        · exact (k2 rfl).2.2 hret
      have hmain := hFf.2.1 (recd_of_sup hsup).1 hnr
      have hoth : ∀ u, u ≠ t → ∀ p ∈ s.th u, p.recd = false := by
        intro u hu p hp
        cases e : p.recd with
        | false => rfl
        | true => exact absurd (((hS u).2.1 p hp).2.1 e hnr) (by rw [← hmain]; exact hu)
      -- the other frames do not depend on the flag and the calls
      have hquiet : ∀ {u : Tid} {p : Frame}, (∀ e ∈ s.g.tr, e ∈ g'.tr) → SupF s.g u p →
          (p.sup = false) → (p.recd = true → u = mainOf s.g.tr) → SupF g' u p := by
        intro u p hsub hp hps hu
        refine ⟨fun e => ?_, fun e _ => ?_, fun e => ?_, fun e => ?_, fun e => ?_⟩
        · obtain ⟨w, w1, w2⟩ := hp.1 e
          exact ⟨w, hsub _ w1, hsub _ w2⟩
        · rw [hm]; exact hu e
        · exact absurd (sup_kinds.1 e).1 (by rw [hps]; simp)
        · exact absurd (sup_kinds.2.1 e).1 (by rw [hps]; simp)
        · exact absurd (sup_kinds.2.2.1 e).1 (by rw [hps]; simp)
      have hsub := mem_of_fstep h
      have hother : ∀ u, u ≠ t → SupS g' u (s.th u) := by
        intro u hu
        refine ⟨(hS u).1, fun p hp => hquiet hsub ((hS u).2.1 p hp) ?_ ?_, fun e => ?_⟩
        · cases e : p.sup with
          | false => rfl
          | true => have := hoth u hu p hp; rw [(recd_of_sup e).1] at this; cases this
        · intro e; rw [hoth u hu p hp] at e; cases e
        · rw [hm, ← hmain] at e; exact absurd e hu
      have hrestF : ∀ p ∈ rest, SupF g' t p := fun p hp =>
        hquiet hsub (hF p (List.mem_cons_of_mem _ hp)) (hrest p hp) (fun _ => hmain)
      have hpair : ∀ q : Frame, (q :: rest).Pairwise (fun f p => p.sup = true → f.region = false) := by
        intro q
        rw [List.pairwise_cons]
        exact ⟨fun p hp e => (by rw [hrest p hp] at e; cases e), hP2⟩
      have htsd : g'.tsd = s.g.tsd := by
        exact tsd_keep (sup_not_resetting hsup) (fun n e => by subst e; cases hsup)
          (fun _ _ e => by subst e; cases hsup) h
      obtain ⟨-, -, k0, k1, k2⟩ := hFf
      cases f <;> first | (simp [Frame.sup] at hsup; done) | skip
      · -- the flag is set
        have hncal : ¬ supCalled s.g.tr := fun hc => by
          have := g1 hc; rw [k0 rfl] at this; cases this
        fstep_cases h
        refine ⟨⟨g0, fun _ => rfl, g2, g3⟩, fun u hu _ => hother u hu, fun e => (by cases e),
          fun e => (by cases e), ?_, fun _ e => (by cases e)⟩
        intro l e; injection e with e; subst e
        refine ⟨hpair _, fun p hp => ?_, fun _ _ => Or.inr ⟨_, List.mem_cons_self, rfl⟩⟩
        rcases List.mem_cons.1 hp with rfl | hp
        · exact ⟨fun e => (by cases e), fun _ _ => hmain, fun e => (by cases e),
            fun _ => ⟨rfl, hncal⟩, fun e => (by cases e)⟩
        · exact hrestF p hp
      · -- the call
        obtain ⟨kd, kc⟩ := k1 rfl
        fstep_cases h
        have hnr' : ¬ supRet ((t, Ev.support) :: s.g.tr) := by
          rintro ⟨w, -, w2⟩
          rcases List.mem_cons.1 w2 with e | w2
          · cases e
          · exact kc (g0 w w2)
        refine ⟨⟨fun _ _ => ⟨t, List.mem_cons_self⟩, fun _ => kd, fun _ => g2 hnr, ⟨fun _ u hu => kc ⟨u, hu⟩, fun e => ?_⟩, g3⟩,
          fun u hu _ => hother u hu, fun e => (by cases e),
          fun e => (by cases e), ?_, fun _ e => (by cases e)⟩
        · rcases e with ⟨_, e⟩ | ⟨_, _, e⟩ <;> cases e
        intro l e; injection e with e; subst e
        refine ⟨hpair _, fun p hp => ?_, fun _ _ => Or.inr ⟨_, List.mem_cons_self, rfl⟩⟩
        rcases List.mem_cons.1 hp with rfl | hp
        · exact ⟨fun e => (by cases e), fun _ _ => by rw [hm]; exact hmain, fun e => (by cases e),
            fun e => (by cases e), fun _ => ⟨kd, List.mem_cons_self, hnr'⟩⟩
        · exact hrestF p hp
      · -- the return
        obtain ⟨kd, kc, -⟩ := k2 rfl
        fstep_cases h
        have hret : supRet ((t, Ev.supportRet) :: s.g.tr) :=
          ⟨t, List.mem_cons_of_mem _ kc, List.mem_cons_self⟩
        refine ⟨⟨fun _ _ => supRet_called hret, fun _ => kd, fun e => absurd hret e, ⟨fun e => (by cases e), fun e => ?_⟩, g3⟩,
          fun u hu _ => hother u hu, fun e => (by cases e),
          fun e => (by cases e), ?_, fun _ e => (by cases e)⟩
        · rcases e with ⟨_, e⟩ | ⟨_, _, e⟩ <;> cases e
        intro l e; injection e with e; subst e
        refine ⟨hpair _, fun p hp => ?_, fun _ _ => Or.inl hret⟩
        rcases List.mem_cons.1 hp with rfl | hp
        · exact ⟨fun _ => hret, fun e => (by cases e), fun e => (by cases e),
            fun e => (by cases e), fun e => (by cases e)⟩
        · exact hrestF p hp
    · have hsup : f.sup = false := by simpa using hsup
      obtain ⟨q1, q2⟩ := sup_quiet hsup h
      have e1 : supCalled g'.tr ↔ supCalled s.g.tr := by
        simp only [supCalled, q2 _ _ (Or.inl rfl)]
      have e2 : supRet g'.tr ↔ supRet s.g.tr := by
        simp only [supRet, q2 _ _ (Or.inl rfl), q2 _ _ (Or.inr rfl)]
      have hkeep : ∀ u h', SupF s.g u h' → SupF g' u h' := fun u h' => supF_keep q1 q2 hm
      have hE' : t = mainOf g'.tr → g'.supportDone = true → supRet g'.tr ∨ ∃ p ∈ rest, p.sup = true := by
        rw [hm, q1, e2]
        intro a b
        rcases hE a b with hE | ⟨p, hp, hps⟩
        · exact Or.inl hE
        · rcases List.mem_cons.1 hp with hp | hp
          · subst hp; rw [hsup] at hps; cases hps
          · exact Or.inr ⟨p, hp, hps⟩
      have hold : ∀ u, SupS s.g u (s.th u) → SupS g' u (s.th u) := by
        rintro u ⟨a, b, c⟩
        refine ⟨a, fun f hf => hkeep u f (b f hf), ?_⟩
        rw [hm, q1, e2]; exact c
      refine ⟨⟨?_, ?_, ?_, sup_always hsup hFf.1 h g3⟩, fun u _ _ => hold u (hS u), fun _ => ?_, ?_, ?_, ?_⟩
      · intro u hu; exact e1.2 (g0 u ((q2 u _ (Or.inr rfl)).1 hu))
      · rw [e1, q1]; exact g1
      · rw [e2]; intro hn
        refine sup_tsd ?_ h (g2 hn)
        cases e : f.past with
        | false => rfl
        | true => exact absurd (hFf.1 e) hn
      · have := hold t (hS t); rwa [ht] at this
      · intro e; subst e
        have hn := hent (sup_unwind h).1
        refine ⟨?_, fun p hp => supF_none (sup_unwound rest p hp).2.1 (sup_unwound rest p hp).2.2, ?_⟩
        · exact List.Pairwise.imp_of_mem (fun _ hb _ hs => by
            rw [(sup_unwound rest _ hb).1] at hs; cases hs) (List.pairwise_of_forall (R := fun _ _ => True) (fun _ _ => trivial))
        · intro a b
          rcases hE' a b with h | ⟨p, hp, hps⟩
          · exact Or.inl h
          · rw [hn p (List.mem_cons_of_mem _ hp)] at hps; cases hps
      · intro l e; subst e
        obtain ⟨n1, n2⟩ := sup_new hsup h
        have hpc4 : f.isPc4 = true → s.g.supportDone = true → supRet s.g.tr := by
          intro hf4 hd
          by_cases hret : supRet s.g.tr
          · exact hret
          have hrec := sup_kinds.2.2.2 hf4
          rcases hE (hFf.2.1 hrec.1 hret) hd with h | ⟨p, hp, hps⟩
          · exact h
          · rcases List.mem_cons.1 hp with hp | hp
            · subst hp; rw [hsup] at hps; cases hps
            · have := hP1 p hp hps; rw [hrec.2] at this; cases this
        refine ⟨?_, ?_, ?_⟩
        · rw [List.pairwise_append]
          refine ⟨?_, hP2, ?_⟩
          · by_cases hx : ∃ p ∈ l, p.sup = true
            · obtain ⟨p, hp, hps⟩ := hx
              rw [(n1 p hp hps).1]; exact List.pairwise_singleton _ _
            · exact List.Pairwise.imp_of_mem (fun _ hb _ hs => absurd ⟨_, hb, hs⟩ hx)
                (List.pairwise_of_forall (R := fun _ _ => True) (fun _ _ => trivial))
          · intro a ha p hp hps
            cases har : a.region with
            | false => rfl
            | true =>
              rcases (n2 a ha).1 har with hr' | hr'
              · have := hP1 p hp hps; rw [hr'] at this; cases this
              · rw [hent hr' p (List.mem_cons_of_mem _ hp)] at hps; cases hps
        · intro p hp
          rcases List.mem_append.1 hp with hp | hp
          · obtain ⟨m1, m2, m3⟩ := n2 p hp
            have ps : p.sup = true → p.isSup0 = true ∧ s.g.supportDone = false := fun e =>
              ⟨(n1 p hp e).2.1, (n1 p hp e).2.2.2⟩
            refine ⟨?_, ?_, ?_, ?_, ?_⟩
            · rw [e2]; intro e
              rcases m2 e with e | ⟨e, hd⟩
              · exact hFf.1 e
              · exact hpc4 e hd
            · rw [e2, hm]; intro e hn
              rcases m3 e with e | ⟨⟨st, ar, e⟩, hg⟩
              · exact hFf.2.1 e hn
              · subst e
                by_cases hne : t = mainOf s.g.tr
                · exact hne
                obtain ⟨hu, hb⟩ := ((base_inv hc).2 t _ (by rw [ht]; exact List.mem_cons_self)).1 hne
                obtain ⟨-, -, hmo⟩ := (tsd_inv hc).1.2 hu hb
                simp only [getTn, hu, if_true] at hg
                cases htsd : s.g.tsd t with
                | none => rw [htsd] at hg; cases hg
                | some n => rw [g2 hn t n htsd] at htsd; exact hmo t htsd
            · intro e; rw [q1]; exact (ps (sup_kinds.1 e).1).2
            · intro e
              have := (ps (sup_kinds.2.1 e).1).1
              rw [(sup_kinds.2.1 e).2] at this; cases this
            · intro e
              have := (ps (sup_kinds.2.2.1 e).1).1
              rw [(sup_kinds.2.2.1 e).2] at this; cases this
          · exact hkeep t p (hF p (List.mem_cons_of_mem _ hp))
        · intro a b
          rcases hE' a b with h | ⟨p, hp, hps⟩
          · exact Or.inl h
          · exact Or.inr ⟨p, List.mem_append_right _ hp, hps⟩
      · intro f0 e; subst e
        obtain ⟨k1, k2, k3, -⟩ := sup_spawn h
        refine ⟨List.pairwise_singleton _ _, fun p hp => ?_, fun e => ?_⟩
        · rw [List.mem_singleton] at hp; subst hp
          refine ⟨fun e => e2.2 (hFf.1 (k3 e)), fun e => ?_, fun e => ?_, fun e => ?_, fun e => ?_⟩
          · rw [k1] at e; cases e
          · exact absurd (sup_kinds.1 e).1 (by rw [k2]; simp)
          · exact absurd (sup_kinds.2.1 e).1 (by rw [k2]; simp)
          · exact absurd (sup_kinds.2.2.1 e).1 (by rw [k2]; simp)
        · have := (base_inv hc).1.1
          rw [hm] at e; omega
  · intro s t i f rest pre hr hA ht hG hS _ _ hpre
    obtain ⟨hP, hF, hE⟩ := hS t
    rw [ht] at hP hF hE
    refine ⟨?_, ?_, ?_⟩
    · rw [List.pairwise_append]
      refine ⟨?_, hP, fun a ha p _ _ => (sup_pushable (hpre a ha).1).2.1⟩
      exact List.Pairwise.imp_of_mem (fun _ hb _ hs => by
        rw [(sup_pushable (hpre _ hb).1).1] at hs; cases hs)
        (List.pairwise_of_forall (R := fun _ _ => True) (fun _ _ => trivial))
    · intro p hp
      rcases List.mem_append.1 hp with hp | hp
      · have := sup_pushable (hpre p hp).1
        exact supF_none this.2.2.1 this.2.2.2
      · exact hF p hp
    · intro a b
      rcases hE a b with h | ⟨p, hp, hps⟩
      · exact Or.inl h
      · exact Or.inr ⟨p, List.mem_append_right _ hp, hps⟩
  · intro s t hr hA hG hne hS
    obtain ⟨hP, hF, hE⟩ := hS t
    have hn := hA.2
    refine ⟨?_, fun p hp => supF_none (sup_unwound _ p hp).2.1 (sup_unwound _ p hp).2.2, ?_⟩
    · exact List.Pairwise.imp_of_mem (fun _ hb _ hs => by
        rw [(sup_unwound _ _ hb).1] at hs; cases hs)
        (List.pairwise_of_forall (R := fun _ _ => True) (fun _ _ => trivial))
    · intro a b
      rcases hE a b with h | ⟨p, hp, hps⟩
      · exact Or.inl h
      · rw [hn p hp] at hps; cases hps
  · intro s t c d rest hr hA ht hG hS
    refine sup_fork hA (fun f hf => ?_) hG hS
    rcases List.mem_cons.1 hf with rfl | hf
    · exact Or.inr ⟨rfl, rfl, rfl⟩
    · rcases List.mem_cons.1 hf with rfl | hf
      · exact Or.inr ⟨rfl, rfl, rfl⟩
      · exact Or.inl (by rw [ht]; exact List.mem_cons_of_mem _ hf)
  · intro s t rest hr hA ht hG hS
    refine sup_fork hA (fun f hf => ?_) hG hS
    rcases List.mem_cons.1 hf with rfl | hf
    · exact Or.inr ⟨rfl, rfl, rfl⟩
    · exact Or.inl (by rw [ht]; exact List.mem_cons_of_mem _ hf)

theorem announced_le {tr : Hist} (h : Always announcedFirst tr) :
    occurs (fun e => decide (e = .support)) tr ≤ 1 := by
  induction tr with
  | nil => simp [occurs]
  | cons x tr ih =>
    obtain ⟨t, e⟩ := x
    have := ih h.2
    simp only [occurs, List.countP_cons] at this ⊢
    by_cases he : e = .support
    · have h0 : List.countP (fun e : Tid × Ev => decide (e.2 = .support)) tr = 0 := by
        rw [List.countP_eq_zero]
        rintro ⟨u, e'⟩ hm hx
        simp only [decide_eq_true_eq] at hx
        subst hx
        exact h.1.1 he u hm
      rw [h0]; simp [he]
    · simpa [he] using this

theorem announced_ge {tr : Hist} (h : Always announcedFirst tr) {u : Tid} {c : Nat}
    (hm : (u, .preCreate c) ∈ tr) : 1 ≤ occurs (fun e => decide (e = .support)) tr := by
  have hex : ∃ w, (w, Ev.support) ∈ tr := by
    induction tr with
    | nil => cases hm
    | cons x tr ih =>
      rcases List.mem_cons.1 hm with e | hm
      · subst e
        obtain ⟨w, hw, _⟩ := h.1.2 (Or.inl ⟨c, rfl⟩)
        exact ⟨w, List.mem_cons_of_mem _ hw⟩
      · obtain ⟨w, hw⟩ := ih h.2 hm
        exact ⟨w, List.mem_cons_of_mem _ hw⟩
  obtain ⟨w, hw⟩ := hex
  exact List.countP_pos_iff.2 ⟨_, hw, by simp⟩

theorem own_all {tr : Hist} (h : startedBy tr = none) : own tr = tr := by
  induction tr with
  | nil => rfl
  | cons x tr ih =>
    obtain ⟨t, e⟩ := x
    cases e <;> first
      | (simp [startedBy] at h; done)
      | exact congrArg (List.cons _) (ih h)

end Libmonitor.Proc
