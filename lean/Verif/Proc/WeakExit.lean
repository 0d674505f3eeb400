import Verif.Proc.WeakInv
/-!
# The exit race in threaded programs linked without the thread module: invariants
-/

namespace Libmonitor.Proc

theorem oneTok_invW {A : LblW → Prop} {tok : Frame → Nat} {flag : G → Bool} {used : G → Nat}
    (hinit : used {} = 0) (hinitf : flag {} = false)
    (hstart : tok .start = 0) (hp : ∀ h, h.pushable = true → tok h = 0) (hcl : ∀ n, tok (.cl0 n) = 0)
    (hign : tok .ignApp = 0)
    (hbp : ∀ c d, tok (.bp0 true d) + tok (.fkChild c) ≤ tok (.fkReal c d))
    (hrf : tok .rfReset ≤ tok .rf)
    (hdead : ∀ g : G, flag { g with dead := true } = flag g ∧ used { g with dead := true } = used g)
    (hnext : ∀ (g : G) (n : Nat),
      flag { g with nextTid := n } = flag g ∧ used { g with nextTid := n } = used g)
    (hfork : ∀ (g : G) (t : Tid) (real : Bool), flag (g.emit t (.forked real)) = flag g ∧
      used (g.emit t (.forked real)) ≤ used g)
    (hgo : ∀ {g : G} {t : Tid} {ok : Bool} {v : Nat} {f : Frame} {g' : G} {nx : Next}
      {sp : Option Frame}, (flag g = false → used g = 0) → fstep g t ok v f = some (g', nx, sp) →
      used g ≤ used g' ∧ (∀ f0, sp = some f0 → tok f0 = 0) ∧
      ((flag g' = flag g ∧ nx.toks tok f + used g' ≤ tok f + used g) ∨
        (flag g = false ∧ flag g' = true ∧ nx.toks tok f + used g' ≤ 1)))
    {s : S} (hs : ReachW A s) : OneTok tok flag used s := by
  induction hs with
  | init =>
    constructor
    · intro _
      refine ⟨hinit, fun t => ?_⟩
      show toks tok (if t = 0 then [Frame.start] else []) = 0
      split
      · rw [toks_cons, hstart]; rfl
      · rfl
    · intro hf
      have hf : flag {} = true := hf
      rw [hinitf] at hf; cases hf
  | @next s s' l hr hA hn ih =>
    rcases nextW_cases (plain_inv hr) hn with ⟨l', rfl, hl, hn'⟩ | ⟨rfl, hd, rfl⟩
    · have hm := move_of_next hn'
      cases l' with
      | step t i => exact oneTok_step hp hcl hdead hgo (fresh_invW hr) hm (fun _ h => by cases h) ih
      | fork t =>
        cases hm with
        | @fork _ c d rest hd ht =>
          refine oneTok_fork (hfork _ _ _) ih ht ?_
          have := hbp c d
          rw [toks_cons, toks_cons]; omega
        | @realFork _ rest hd ht =>
          refine oneTok_fork (hfork _ _ _) ih ht ?_
          rw [toks_cons]; omega
    · have h := oneTok_spawn ih hign (fresh_invW hr _ (Nat.le_refl _))
      obtain ⟨e1, e2⟩ := hnext s.g (s.g.nextTid + 1)
      constructor
      · intro hf
        have := h.1 (e1.symm.trans hf)
        exact ⟨e2.trans this.1, this.2⟩
      · intro hf
        obtain ⟨w, a, b⟩ := h.2 (e1.symm.trans hf)
        refine ⟨w, a, ?_⟩
        show toks tok _ + used { s.g with nextTid := s.g.nextTid + 1 } ≤ 1
        rw [e2]; exact b

theorem oneTokW_fini {A : LblW → Prop} {s : S} (hs : ReachW A s) :
    OneTok tokFini (·.cookie) (fun g => occurs Ev.isFiniProcess g.tr) s := by
  refine oneTok_invW rfl rfl rfl ?_ (fun _ => rfl) rfl (fun _ _ => Nat.le_refl _) (Nat.le_refl _)
    (fun _ => ⟨rfl, rfl⟩) (fun _ _ => ⟨rfl, rfl⟩) (fun _ _ _ => ⟨rfl, ?_⟩) ?_ hs
  · intro f hf
    cases f <;> first | rfl | (simp [Frame.pushable] at hf; done)
  · simp [G.emit, occurs_cons, Ev.isFiniProcess]
  · intro g t ok v f g' nx sp h0 h
    cases f <;> fstep_cases h <;>
      simp_all [listInit, G.emit, G.upd, Next.toks, toks, tokFini, occurs_cons, Ev.isFiniProcess] <;> omega

theorem oneTokW_begin {A : LblW → Prop} {s : S} (hs : ReachW A s) :
    OneTok tokBegin (·.cookie) (fun g => occurs Ev.isBeginExit g.tr) s := by
  refine oneTok_invW rfl rfl rfl ?_ (fun _ => rfl) rfl (fun _ _ => Nat.le_refl _) (Nat.le_refl _)
    (fun _ => ⟨rfl, rfl⟩) (fun _ _ => ⟨rfl, rfl⟩) (fun _ _ _ => ⟨rfl, ?_⟩) ?_ hs
  · intro f hf
    cases f <;> first | rfl | (simp [Frame.pushable] at hf; done)
  · simp [G.emit, occurs_cons, Ev.isBeginExit]
  · intro g t ok v f g' nx sp h0 h
    cases f <;> fstep_cases h <;>
      simp_all [listInit, G.emit, G.upd, Next.toks, toks, tokBegin, occurs_cons, Ev.isBeginExit] <;> omega

theorem exitFrame_api {g : G} {t : Tid} {f : Frame} (hp : f.pushable = true) : exitFrame g t f := by
  cases f <;> first | trivial | (simp [Frame.pushable] at hp; done)

theorem exitOrderW_inv {A : LblW → Prop} {s : S} (hs : ReachW A s) :
    Always exitOrder s.g.tr := by
  refine (stack_invW (GI := fun g => Always exitOrder g.tr)
    (SI := fun g t l => ∀ h ∈ l, exitFrame g t h) trivial
    (fun h hm => by rw [List.mem_singleton] at hm; rw [hm]; trivial) ?_ (fun _ h => h)
    (fun _ _ _ h => h) ?_ ?_ ?_ (fun h => h) (fun h => h) ?_ ?_ ?_ ?_ ?_ hs).2.1
  · intro s t f rest ok v g' nx _ hpl ht hG hF h
    have hm := mem_of_fstep h
    have hfr : exitFrame s.g t f := hF t f (by rw [ht]; exact List.mem_cons_self)
    refine ⟨?_, fun u _ hu h hm' => exitFrame_mono hm (hu h hm'), ?_, ?_⟩
    · clear hm ht hF
      cases f <;> first | (simp [Frame.inMain] at hpl; done) | skip
      all_goals fstep_cases h <;>
        simp_all [Always, exitOrder, exitFrame, G.emit, G.upd]
    · intro _ h' hm'
      exact exitFrame_mono hm (hF t h' (by rw [ht]; exact hm'))
    · intro l hl h' hm'
      rcases List.mem_append.1 hm' with hm' | hm'
      · clear hm ht hF
        cases f <;> first | (simp [Frame.inMain] at hpl; done) | skip
        all_goals fstep_cases h <;> cases hl <;>
          (try simp only [List.mem_cons, List.not_mem_nil, or_false] at hm') <;>
          (try (rcases hm' with rfl | rfl)) <;> (try subst hm') <;>
          first
          | trivial
          | (simp_all [exitFrame, G.emit, G.upd]; done)
      · exact exitFrame_mono hm (hF t h' (by rw [ht]; exact List.mem_cons_of_mem _ hm'))
  · intro g t f rest a _ hF h hm
    rcases List.mem_append.1 hm with hm | hm
    · exact exitFrame_api (api_pushable hm)
    · exact hF h hm
  · intro g t rest _ hF h hm
    rcases List.mem_cons.1 hm with hm | hm
    · rw [hm]; trivial
    · exact hF h hm
  · intro g t _ h hm
    rw [List.mem_singleton] at hm; rw [hm]; trivial
  · intro g t _ h hm
    rw [List.mem_singleton] at hm; rw [hm]; trivial
  · intro g t real h; exact ⟨trivial, h⟩
  · intro g t h hm; cases hm
  · intro g t c d rest hF h hm
    rcases List.mem_cons.1 hm with hm | hm
    · rw [hm]; trivial
    rcases List.mem_cons.1 hm with hm | hm
    · rw [hm]; trivial
    · exact exitFrame_mono (fun _ hm => List.mem_cons_of_mem _ hm)
        (hF h (List.mem_cons_of_mem _ hm))
  · intro g t rest hF h hm
    rcases List.mem_cons.1 hm with hm | hm
    · rw [hm]; trivial
    · exact exitFrame_mono (fun _ hm => List.mem_cons_of_mem _ hm)
        (hF h (List.mem_cons_of_mem _ hm))

/-- Answers to the client's queries. -/
def asked (old : Hist) (_t : Tid) (e : Ev) : Prop :=
  (∀ n, e = .gotNum n → n = 0) ∧ (∀ d, e = .gotData d → d = lastData old) ∧
    ∀ b, e = .gotThreaded b → b = false

theorem askedW_inv {A : LblW → Prop} {s : S} (hs : ReachW A s) :
    s.g.main.data = lastData s.g.tr ∧ Always asked s.g.tr := by
  refine (stack_invW (GI := fun g => g.main.data = lastData g.tr ∧ Always asked g.tr)
    (SI := fun _ _ _ => True) ⟨rfl, trivial⟩ trivial ?_ (fun _ h => h) (fun _ _ _ _ => trivial)
    (fun _ _ _ => trivial) (fun _ _ => trivial) (fun _ => trivial) (fun h => h) (fun _ => trivial)
    (fun _ => trivial) ?_ trivial (fun _ => trivial) (fun _ => trivial) hs).2.1
  · intro s t f rest ok v g' nx hpg hpl ht hG _ h
    refine ⟨?_, fun _ _ _ => trivial, fun _ => trivial, fun _ _ => trivial⟩
    obtain ⟨h1, h2, -⟩ := hpg
    obtain ⟨hD, hA⟩ := hG
    have hD : (s.g.nodes .main).data = lastData s.g.tr := hD
    have h2 : (s.g.nodes .main).tid = 0 := h2
    have k : ∀ {tr e}, (∀ n, e = .gotNum n → n = 0) → (∀ d, e = .gotData d → d = lastData tr) →
        (∀ b, e = .gotThreaded b → b = false) → asked tr t e := fun a b c => ⟨a, b, c⟩
    cases f <;> first | (simp [Frame.inMain] at hpl; done) | skip
    all_goals simp only [fstep, cont, getTn_plain h1, resetList_plain h1] at h
    all_goals (repeat' split at h) <;> cases h
    all_goals first
      | exact ⟨hD, hA⟩
      | (refine ⟨?_, ?_, hA⟩
         · simp_all [G.main, G.emit, G.upd, lastData]
         · exact k (by simp [h2]) (by simp [hD]) (by simp [h1]))
      | (refine ⟨?_, ?_, hA⟩
         · simp only [G.main, G.emit, G.upd, lastData]; split <;> simp_all
         · exact k (by simp) (by simp) (by simp))
  · intro g t real h
    exact ⟨h.1, ⟨fun _ h => (by cases h), fun _ h => (by cases h), fun _ h => (by cases h)⟩, h.2⟩

/-- Begin-process-exit has been called. -/
def begunExit (tr : Hist) : Prop := ∃ t how, (t, Ev.beginExit how) ∈ tr

theorem begunExit_mono {a b : Hist} (h : ∀ e, e ∈ a → e ∈ b) (hr : begunExit a) : begunExit b := by
  obtain ⟨t, how, hm⟩ := hr
  exact ⟨t, how, h _ hm⟩

/-- No real exit before begin-process-exit has been called. -/
def exitBegun (old : Hist) (_t : Tid) (e : Ev) : Prop := e.isHookedExit = true → begunExit old

/-- Frames before begin-process-exit is called. -/
def earlyFrame : Frame → Prop
  | .epBegin _ | .epFini0 _ | .epFini _ | .epDone .. => False
  | .ep1 _ tn | .ep2 _ tn => tn = some .main
  | _ => True

theorem early_api {f : Frame} (hp : f.pushable = true) : earlyFrame f := by
  cases f <;> first | trivial | (simp [Frame.pushable] at hp; done)

theorem always_exitBegun {tr : Hist} (es : List (Tid × Ev)) (h : Always exitBegun tr)
    (hb : begunExit tr) : Always exitBegun (es ++ tr) := by
  induction es with
  | nil => exact h
  | cons e es ih =>
    exact ⟨fun _ => begunExit_mono (fun _ hm => List.mem_append_right _ hm) hb, ih⟩

theorem begunW_inv {A : LblW → Prop} {s : S} (hs : ReachW A s) : Always exitBegun s.g.tr := by
  refine (stack_invW
    (GI := fun g => Always exitBegun g.tr ∧ (g.main.exitWin = true → begunExit g.tr) ∧
      (g.finiProcDone = true → begunExit g.tr))
    (SI := fun g _ l => begunExit g.tr ∨ (Cov none l ∧ ∀ h ∈ l, earlyFrame h))
    ⟨trivial, fun h => (by cases h), fun h => (by cases h)⟩ ?_ ?_ (fun _ h => h)
    (fun _ _ _ h => h) ?_ ?_ ?_ (fun h => h) (fun h => h) ?_ ?_ ?_ ?_ ?_ hs).2.1.1
  · right
    exact ⟨⟨fun h => (by cases h), trivial⟩,
      fun h hm => by rw [List.mem_singleton] at hm; rw [hm]; trivial⟩
  · intro s t f rest ok v g' nx hpg hpl ht hG hS h
    have hu := hpg.1
    obtain ⟨hG1, hG2, hG3⟩ := hG
    have hm := mem_of_fstep h
    by_cases hb : begunExit s.g.tr
    · have hb' := begunExit_mono hm hb
      obtain ⟨es, he⟩ := fstep_tr h
      exact ⟨⟨by rw [he]; exact always_exitBegun _ hG1 hb, fun _ => hb', fun _ => hb'⟩,
        fun _ _ _ => Or.inl hb', fun _ => Or.inl hb', fun _ _ => Or.inl hb'⟩
    · have hst := (hS t).resolve_left hb
      rw [ht] at hst
      obtain ⟨hcov, hearly⟩ := hst
      have hw : s.g.main.exitWin = false := by
        cases e : s.g.main.exitWin with
        | false => rfl
        | true => exact absurd (hG2 e) hb
      have hw' : (s.g.nodes .main).exitWin = false := hw
      have hdn : s.g.finiProcDone = false := by
        cases e : s.g.finiProcDone with
        | false => rfl
        | true => exact absurd (hG3 e) hb
      have hf0 := hearly f List.mem_cons_self
      have hrest : ∀ h ∈ rest, earlyFrame h := fun h hm => hearly h (List.mem_cons_of_mem _ hm)
      have hx : f.isX = false := by
        cases e : f.isX with
        | false => rfl
        | true => obtain ⟨a, ha, _⟩ := hcov.1 e; cases ha
      clear hS ht hG2 hG3 hearly
      refine ⟨?_, fun _ _ hu => hu.imp (begunExit_mono hm) id, ?_, ?_⟩
      · clear hm
        cases f <;> first | (simp [Frame.inMain] at hpl; done) | (exact hf0.elim) | skip
        all_goals fstep_cases h
        all_goals try rw [resetList_plain hu]
        all_goals first
          | (refine ⟨hG1, fun h => ?_, fun h => ?_⟩ <;> simp_all [G.main]; done)
          | (simp [Frame.isX] at hx; done)
          | (refine ⟨⟨fun h => ?_, hG1⟩, fun h => ?_, fun h => ?_⟩ <;>
              simp_all [G.main, G.emit, G.upd, Ev.isHookedExit, Frame.isX]; done)
          | exact ⟨⟨fun h => absurd h Bool.false_ne_true, hG1⟩, fun _ => ⟨_, _, List.mem_cons_self⟩,
              fun _ => ⟨_, _, List.mem_cons_self⟩⟩
      · intro _
        cases f <;> first | (simp [Frame.inMain] at hpl; done) | (exact hf0.elim) | skip
        all_goals right; exact ⟨hcov, fun h hm => (List.mem_cons.1 hm).elim (fun e => e ▸ hf0) (hrest h)⟩
      · intro l hl
        by_cases hep : f.isEp = true
        · clear hm
          cases f <;> first | (simp [Frame.isEp] at hep; done) | (exact hf0.elim) | skip
          · fstep_cases h; cases hl
            right
            refine ⟨⟨fun hx => by simp [Frame.isX] at hx, cov_weaken hcov.2 (fun _ => ⟨_, rfl, rfl⟩)⟩,
              fun h hm => ?_⟩
            rcases List.mem_cons.1 hm with hm | hm
            · rw [hm]; exact getTn_plain hu
            · exact hrest h hm
          · rename_i how tn
            have hf0 : tn = some .main := hf0
            subst hf0
            simp only [fstep, cont, hw', Bool.false_eq_true, if_false] at h
            have hnil : ∀ a : Frame, a.isX = false → a.isEp = true → earlyFrame a →
                Cov none ([a] ++ rest) ∧ ∀ h ∈ [a] ++ rest, earlyFrame h := by
              intro a h1 h2 h3
              refine ⟨⟨fun hx => (by rw [h1] at hx; cases hx),
                cov_weaken hcov.2 (fun _ => ⟨_, rfl, h2⟩)⟩, fun h hm => ?_⟩
              rcases List.mem_cons.1 hm with hm | hm
              · rw [hm]; exact h3
              · exact hrest h hm
            split at h <;> cases h <;> cases hl
            · exact Or.inr (hnil _ rfl rfl trivial)
            · exact Or.inr (hnil _ rfl rfl rfl)
          · fstep_cases h <;> cases hl <;> exact Or.inl ⟨_, _, List.mem_cons_self⟩
          · simp only [fstep, cont, hdn, Bool.false_eq_true, if_false] at h
            cases h
        · have hc : ∀ o, Cov o rest := fun o => cov_weaken hcov.2 (fun h => absurd h hep)
          right
          clear hm
          cases f <;> first | (simp [Frame.inMain] at hpl; done) | (exact absurd rfl hep) | skip
          all_goals fstep_cases h <;> cases hl <;>
            simp_all [Cov, Frame.isX, Frame.isEp, earlyFrame]
  · rintro g t f rest a hG (hst | ⟨hcov, hst⟩)
    · exact Or.inl hst
    · refine Or.inr ⟨?_, fun h hm => ?_⟩
      · have hx : f.isX = false := by
          cases e : f.isX with
          | false => rfl
          | true => obtain ⟨a, ha, _⟩ := hcov.1 e; cases ha
        cases a <;> simp only [Api.frames] <;> (try split) <;>
          simp_all [Cov, Frame.isX, Frame.isEp]
      · rcases List.mem_append.1 hm with hm | hm
        · exact early_api (api_pushable hm)
        · exact hst h hm
  · rintro g t rest - (hst | ⟨hcov, hst⟩)
    · exact Or.inl hst
    · refine Or.inr ⟨⟨fun hx => by simp [Frame.isX] at hx, cov_none hcov⟩, fun h hm => ?_⟩
      rcases List.mem_cons.1 hm with hm | hm
      · rw [hm]; trivial
      · exact hst h hm
  · intro g t _
    exact Or.inr ⟨⟨fun hx => by simp [Frame.isX] at hx, trivial⟩,
      fun h hm => by rw [List.mem_singleton] at hm; rw [hm]; trivial⟩
  · intro g t _
    exact Or.inr ⟨⟨fun hx => by simp [Frame.isX] at hx, trivial⟩,
      fun h hm => by rw [List.mem_singleton] at hm; rw [hm]; trivial⟩
  · rintro g t real ⟨h1, h2, h3⟩
    have mono : begunExit g.tr → begunExit (g.emit t (.forked real)).tr :=
      begunExit_mono (fun _ hm => List.mem_cons_of_mem _ hm)
    exact ⟨⟨fun hx => by simp [Ev.isHookedExit] at hx, h1⟩, fun h => mono (h2 h),
      fun h => mono (h3 h)⟩
  · intro g t
    exact Or.inr ⟨trivial, fun h hm => by cases hm⟩
  · rintro g t c d rest (hst | ⟨hcov, hst⟩)
    · exact Or.inl (begunExit_mono (fun _ hm => List.mem_cons_of_mem _ hm) hst)
    · refine Or.inr ⟨⟨fun hx => by simp [Frame.isX] at hx, fun hx => by simp [Frame.isX] at hx,
        cov_weaken hcov.2 (fun h => by simp [Frame.isEp] at h)⟩, fun h hm => ?_⟩
      rcases List.mem_cons.1 hm with hm | hm
      · rw [hm]; trivial
      rcases List.mem_cons.1 hm with hm | hm
      · rw [hm]; trivial
      · exact hst h (List.mem_cons_of_mem _ hm)
  · rintro g t rest (hst | ⟨hcov, hst⟩)
    · exact Or.inl (begunExit_mono (fun _ hm => List.mem_cons_of_mem _ hm) hst)
    · refine Or.inr ⟨⟨fun hx => by simp [Frame.isX] at hx,
        cov_weaken hcov.2 (fun h => by simp [Frame.isEp] at h)⟩, fun h hm => ?_⟩
      rcases List.mem_cons.1 hm with hm | hm
      · rw [hm]; trivial
      · exact hst h (List.mem_cons_of_mem _ hm)

end Libmonitor.Proc
