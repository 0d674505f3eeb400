import Verif.Proc.ChildInv
/-!
# Exit in a child of fork: invariants
-/

namespace Libmonitor.Proc

/-- Frames of monitor_end_process_fcn after the compare-and-swap. -/
def Frame.late : Frame → Bool
  | .ep2 .. | .epBegin _ | .epFini0 _ | .epFini _ | .epWait _ | .epDone .. => true
  | _ => false

theorem late_inv {A : S → Lbl → Prop} {s : S} (hs : ReachA A s) :
    (s.g.cookie = false → s.g.finiProcDone = false ∧ ¬ released s.g.tr) ∧
      ∀ u h, h ∈ s.th u → h.late = true → s.g.cookie = true := by
  refine frames_inv (GI := fun g => g.cookie = false → g.finiProcDone = false ∧ ¬ released g.tr)
    (FI := fun g _ h => h.late = true → g.cookie = true)
    ?_ (by simp [Frame.late]) ?_ (fun _ h => h) (fun _ _ _ h => h) ?_ ?_ ?_
    (fun h => h) (fun _ => ⟨by simp [Frame.late], by simp [Frame.late]⟩)
    (fun _ => by simp [Frame.late]) hs
  · intro _
    refine ⟨rfl, ?_⟩
    rintro (⟨t, how, h⟩ | ⟨t, how, h⟩) <;> cases h
  · intro s t f rest ok v g' nx sp _ ht hG hF h
    have hfr := hF t f (by rw [ht]; exact List.mem_cons_self)
    clear hF ht
    have hc : s.g.cookie = true → g'.cookie = true := by
      cases f <;> fstep_cases h <;> simp_all [listInit, G.emit, G.upd]
    refine ⟨fun hc' => ?_, fun u f' h1 h2 => hc (h1 h2), ?_, ?_⟩
    · have hc0 : s.g.cookie = false := by
        cases e : s.g.cookie with
        | false => rfl
        | true => rw [hc e] at hc'; cases hc'
      obtain ⟨h1, h2⟩ := hG hc0
      have hr : ∀ {tr : Hist} {e : Ev}, ¬ released tr → (∀ how, e ≠ .finiProcessRet how) →
          (∀ how, e ≠ .resume how .again) → ¬ released ((t, e) :: tr) := by
        intro tr e hn e1 e2
        rintro (⟨u, how, hm⟩ | ⟨u, how, hm⟩) <;> rcases List.mem_cons.1 hm with hm | hm
        · injection hm with _ hm; exact e1 how hm.symm
        · exact hn (Or.inl ⟨u, how, hm⟩)
        · injection hm with _ hm; exact e2 how hm.symm
        · exact hn (Or.inr ⟨u, how, hm⟩)
      clear hG
      cases f <;> fstep_cases h <;> first
        | (exact absurd (hfr rfl) (by simp [hc0]))
        | exact ⟨h1, h2⟩
        | exact ⟨h1, hr h2 (by simp) (by simp)⟩
        | exact ⟨h1, hr (hr h2 (by simp) (by simp)) (by simp) (by simp)⟩
        | exact ⟨rfl, h2⟩
        | (simp only [G.emit, G.upd, resetList_tr, resetList_finiProcDone]
           exact ⟨h1, hr h2 (by simp) (by simp)⟩)
    · intro l hl h' hl' hlate
      cases f <;> fstep_cases h <;> cases hl <;>
        (try simp only [List.mem_cons, List.not_mem_nil, or_false] at hl') <;>
        (try (rcases hl' with rfl | rfl)) <;> (try subst hl') <;>
        first
        | (simp [Frame.late] at hlate; done)
        | rfl
        | exact hfr rfl
        | assumption
    · intro f0 hsp hlate
      cases f <;> fstep_cases h <;> cases hsp <;> simp [Frame.late] at hlate
  · intro g t f _ hp hl
    cases f <;> simp_all [Frame.pushable, Frame.late]
  · intro g t f n _ _ hl; simp [Frame.late] at hl
  · intro g t real h hc
    obtain ⟨h1, h2⟩ := h hc
    refine ⟨h1, ?_⟩
    rintro (⟨u, how, hm⟩ | ⟨u, how, hm⟩) <;> rcases List.mem_cons.1 hm with hm | hm
    · cases hm
    · exact h2 (Or.inl ⟨u, how, hm⟩)
    · cases hm
    · exact h2 (Or.inr ⟨u, how, hm⟩)

/-- Executions in which no thread forks once an exit function has been entered. -/
def CalmFork (s : S) : Lbl → Prop
  | .fork _ => s.g.cookie = false
  | _ => True

instance (s : S) (l : Lbl) : Decidable (CalmFork s l) := by
  unfold CalmFork; split <;> infer_instance

theorem own_append {es : List Ev} {t : Tid} {tr : Hist} (h : ∀ e ∈ es, e.isForked = false) :
    own (es.map (fun e => (t, e)) ++ tr) = es.map (fun e => (t, e)) ++ own tr := by
  induction es with
  | nil => rfl
  | cons e es ih =>
    show own ((t, e) :: (es.map (fun e => (t, e)) ++ tr)) = _
    rw [own_cons _ (h e List.mem_cons_self), ih (fun e' he' => h e' (List.mem_cons_of_mem _ he'))]
    rfl

theorem own_mem_fstep {g g' : G} {t : Tid} {ok : Bool} {v : Nat} {f : Frame} {nx : Next}
    {sp : Option Frame} (h : fstep g t ok v f = some (g', nx, sp)) :
    ∀ e, e ∈ own g.tr → e ∈ own g'.tr := by
  obtain ⟨es, he, hf⟩ := fstep_forked h
  intro e hm
  rw [he, own_append hf]
  exact List.mem_append_right _ hm

def doneFrameO (g : G) : Frame → Prop
  | .epDone _ .win => ∃ t how, (t, Ev.finiProcessRet how) ∈ own g.tr
  | .epDone _ .lose => released (own g.tr)
  | _ => True

theorem doneFrameO_mono {g g' : G} (h : ∀ e, e ∈ own g.tr → e ∈ own g'.tr) {f : Frame}
    (hf : doneFrameO g f) : doneFrameO g' f := by
  cases f <;> try trivial
  rename_i how w
  cases w with
  | win => obtain ⟨t, how, hm⟩ := hf; exact ⟨t, how, h _ hm⟩
  | again => trivial
  | lose => exact released_mono h hf

def exitReleasedO (old : Hist) (_t : Tid) (e : Ev) : Prop :=
  e.isHookedExit = true → released (own old)

theorem done_go {g g' : G} {t : Tid} {ok : Bool} {v : Nat} {f : Frame} {nx : Next}
    {sp : Option Frame} (h : fstep g t ok v f = some (g', nx, sp))
    (hG : g.finiProcDone = true → released (own g.tr)) (hfr : doneFrameO g f) :
    (g'.finiProcDone = true → released (own g'.tr)) ∧
      (∀ l, nx = .go l → ∀ h ∈ l, doneFrameO g' h) := by
  have hm := own_mem_fstep h
  constructor
  · intro hd
    by_cases hd0 : g.finiProcDone = true
    · exact released_mono hm (hG hd0)
    · clear hG
      cases f <;> fstep_cases h <;> try (exact absurd hd hd0)
      all_goals try (simp [G.emit, G.upd] at hd; exact absurd hd hd0)
      all_goals try (simp at hd; done)
      rename_i how w
      have ho : own ((t, Ev.resume how w) :: g.tr) = (t, Ev.resume how w) :: own g.tr :=
        own_cons _ rfl
      cases w with
      | win =>
        obtain ⟨u, how', hu⟩ := hfr
        exact Or.inl ⟨u, how', hm _ hu⟩
      | again => exact Or.inr ⟨t, how, by simp only [G.emit]; rw [ho]; exact List.mem_cons_self⟩
      | lose => exact released_mono hm hfr
  · intro l hl h' hl'
    have ho : ∀ {e : Ev} {tr}, e.isForked = false → (t, e) ∈ own ((t, e) :: tr) := by
      intro e tr he; rw [own_cons _ he]; exact List.mem_cons_self
    cases f <;> fstep_cases h <;> cases hl <;>
      (try simp only [List.mem_cons, List.not_mem_nil, or_false] at hl') <;>
      (try (rcases hl' with rfl | rfl)) <;> (try subst hl') <;>
      first
      | trivial
      | (exact hG (by assumption))
      | exact ⟨_, _, ho rfl⟩

theorem ownExit_inv {s : S} (hs : ReachA CalmFork s) :
    ((s.g.finiProcDone = true → released (own s.g.tr)) ∧ Always exitReleasedO s.g.tr) ∧
    ∀ u, (∀ f ∈ s.th u, doneFrameO s.g f) ∧ (released (own s.g.tr) ∨ Cov none (s.th u)) := by
  refine stack_inv
    (GI := fun g => (g.finiProcDone = true → released (own g.tr)) ∧ Always exitReleasedO g.tr)
    (SI := fun g _ l => (∀ f ∈ l, doneFrameO g f) ∧ (released (own g.tr) ∨ Cov none l))
    ⟨fun h => (by cases h), trivial⟩ ⟨?_, Or.inr ⟨fun h => (by cases h), trivial⟩⟩ ?_
    (fun _ h => h) ?_ ?_ ?_ ?_ ?_ ?_ ⟨(by simp), Or.inr trivial⟩ ?_ ?_ hs
  · intro f hf; rw [List.mem_singleton] at hf; subst hf; trivial
  · intro s t f rest ok v g' nx sp hr _ ht hG hS h
    have hm := own_mem_fstep h
    obtain ⟨hdn, hst⟩ := hS t
    rw [ht] at hst hdn
    have hdf := hdn f List.mem_cons_self
    obtain ⟨d1, d2⟩ := done_go h hG.1 hdf
    have hmono : ∀ u, u ≠ t → (∀ f ∈ s.th u, doneFrameO g' f) := fun u _ f hf =>
      doneFrameO_mono hm ((hS u).1 f hf)
    refine ⟨⟨d1, ?_⟩, fun u hu h => ⟨hmono u hu, h.2.imp (released_mono hm) id⟩, ?_, ?_, ?_, ?_⟩
    · obtain ⟨-, hG⟩ := hG
      clear hdn hS ht d1 d2 hmono
      cases f <;> fstep_cases h <;>
        simp_all [Always, exitReleasedO, Ev.isHookedExit, G.emit, G.upd, listInit, Cov, Frame.isX]
      all_goals (intro hb; subst hb; simpa using hst)
    · intro _
      exact ⟨fun f' hf' => doneFrameO_mono hm (hdn f' hf'), hst.imp (released_mono hm) id⟩
    · intro hnx
      refine ⟨fun f' hf' => doneFrameO_mono hm (hdn f' (List.mem_cons_of_mem _ hf')), ?_⟩
      rcases hst with hst | hst
      · exact Or.inl (released_mono hm hst)
      · refine Or.inr (cov_weaken hst.2 ?_)
        clear hdn hS ht hm d1 d2 hmono
        intro he
        cases f <;> first | (simp [Frame.isEp] at he; done) | (fstep_cases h <;> cases hnx)
    · intro l hl
      constructor
      · intro f' hf'
        rcases List.mem_append.1 hf' with hf' | hf'
        · exact d2 l hl f' hf'
        · exact doneFrameO_mono hm (hdn f' (List.mem_cons_of_mem _ hf'))
      rcases hst with hst | hst
      · exact Or.inl (released_mono hm hst)
      · clear hS ht hG hmono hdn d1 d2
        by_cases he : f.isEp = true
        · cases f <;> first | (simp [Frame.isEp] at he; done) | skip
          all_goals fstep_cases h <;> cases hl <;> try
            (refine Or.inr ⟨fun hx => by simp [Frame.isX] at hx, ?_⟩
             exact cov_weaken hst.2 (fun _ => ⟨_, rfl, rfl⟩))
          · refine Or.inr ⟨fun hx => by simp [Frame.isX] at hx,
              fun hx => by simp [Frame.isX] at hx, ?_⟩
            exact cov_weaken hst.2 (fun _ => ⟨_, rfl, rfl⟩)
          · rename_i how w
            left
            cases w with
            | win =>
              obtain ⟨u, how', hu⟩ := hdf
              exact Or.inl ⟨u, how', hm _ hu⟩
            | again =>
              exact Or.inr ⟨t, how, by simp only [G.emit]; rw [own_cons _ rfl]; exact List.mem_cons_self⟩
            | lose => exact released_mono hm hdf
        · have hc : ∀ o, Cov o rest := fun o => cov_weaken hst.2 (fun h => absurd h he)
          right
          clear hdf hm
          cases f <;> fstep_cases h <;> cases hl <;>
            simp_all [Cov, Frame.isX, Frame.isEp]
    · intro f0 hsp
      have hx : doneFrameO g' f0 ∧ Cov none [f0] := by
        clear hdf hm hdn hst d1 d2 hmono
        cases f <;> fstep_cases h <;> cases hsp <;> simp [Cov, Frame.isX, doneFrameO]
      refine ⟨fun f' hf' => ?_, Or.inr hx.2⟩
      rw [List.mem_singleton] at hf'; subst hf'; exact hx.1
  · intro g u l h
    exact h
  · rintro g t f rest a - hf ⟨hd, hst⟩
    refine ⟨fun f' hf' => ?_, ?_⟩
    · rcases List.mem_append.1 hf' with hf' | hf'
      · have := api_pushable hf'
        cases f' <;> first | trivial | (simp [Frame.pushable] at this; done)
      · exact hd f' hf'
    rcases hst with hst | hst
    · exact Or.inl hst
    · refine Or.inr ?_
      cases a <;> simp only [Api.frames] <;> (try split) <;>
        simp_all [Cov, Frame.isX, Frame.isEp]
      all_goals
        intro hx
        exact absurd hx (by cases f <;> simp [Frame.isX, Frame.foreign] at * )
  · rintro g t rest - - ⟨hd, hst⟩
    refine ⟨fun f' hf' => ?_, ?_⟩
    · rcases List.mem_cons.1 hf' with hf' | hf'
      · subst hf'; trivial
      · exact hd f' hf'
    rcases hst with hst | hst
    · exact Or.inl hst
    · exact Or.inr ⟨fun hx => by simp [Frame.isX] at hx, cov_none hst⟩
  · rintro g t rest - ⟨hd, hst⟩
    refine ⟨fun f' hf' => ?_, ?_⟩
    · rcases List.mem_cons.1 hf' with hf' | hf'
      · subst hf'; trivial
      · exact hd f' hf'
    rcases hst with hst | hst
    · exact Or.inl hst
    · exact Or.inr ⟨fun hx => by simp [Frame.isX] at hx, cov_none hst⟩
  · rintro g t l - ⟨hd, hst⟩
    refine ⟨fun f' hf' => ?_, ?_⟩
    · rcases unwound_cases l with h | ⟨_, n, _, _, h⟩ <;> rw [h] at hf' <;>
        simp only [List.mem_cons, List.not_mem_nil, or_false] at hf'
      · subst hf'; trivial
      · rcases hf' with hf' | hf' <;> subst hf' <;> trivial
    rcases hst with hst | hst
    · exact Or.inl hst
    · right
      rcases unwound_cases l with h | ⟨_, n, _, _, h⟩ <;> rw [h] <;> simp [Cov, Frame.isX]
  · intro s t real hr hA h
    have hl := (late_inv hr).1 hA
    refine ⟨fun hd => ?_, fun hx => by simp [Ev.isHookedExit] at hx, h.2⟩
    have hd : s.g.finiProcDone = true := hd
    rw [hl.1] at hd; cases hd
  · rintro s t c d rest hr hA ht - ⟨-, hst⟩
    have hl := late_inv hr
    have hn := hl.1 hA
    have hst : Cov none (.fkReal c d :: rest) := by
      rcases hst with hst | hst
      · exact absurd (released_mono (fun e he => (own_sublist _).subset he) hst) hn.2
      · exact hst
    refine ⟨fun f hf => ?_, ?_⟩
    · have hnl : f.late = false := by
        rcases List.mem_cons.1 hf with hf | hf
        · subst hf; rfl
        rcases List.mem_cons.1 hf with hf | hf
        · subst hf; rfl
        · cases e : f.late with
          | false => rfl
          | true =>
            have := hl.2 t f (by rw [ht]; exact List.mem_cons_of_mem _ hf) e
            rw [hA] at this; cases this
      cases f <;> first | trivial | (simp [Frame.late] at hnl; done)
    · exact Or.inr ⟨fun hx => by simp [Frame.isX] at hx, fun hx => by simp [Frame.isX] at hx,
        cov_weaken hst.2 (fun h => by simp [Frame.isEp] at h)⟩
  · rintro s t rest hr hA ht - ⟨-, hst⟩
    have hl := late_inv hr
    have hn := hl.1 hA
    have hst : Cov none (.rf :: rest) := by
      rcases hst with hst | hst
      · exact absurd (released_mono (fun e he => (own_sublist _).subset he) hst) hn.2
      · exact hst
    refine ⟨fun f hf => ?_, ?_⟩
    · have hnl : f.late = false := by
        rcases List.mem_cons.1 hf with hf | hf
        · subst hf; rfl
        · cases e : f.late with
          | false => rfl
          | true =>
            have := hl.2 t f (by rw [ht]; exact List.mem_cons_of_mem _ hf) e
            rw [hA] at this; cases this
      cases f <;> first | trivial | (simp [Frame.late] at hnl; done)
    · exact Or.inr ⟨fun hx => by simp [Frame.isX] at hx,
        cov_weaken hst.2 (fun h => by simp [Frame.isEp] at h)⟩

/-- The winner of the exit race before begin-process-exit. -/
def Frame.isEp2 : Frame → Bool
  | .ep2 .. => true
  | _ => false

/-- Executions in which no thread forks once an exit function has been entered, and the winner of
the exit race does not end (by pthread_exit or cancellation in a signal handler) before it has
called begin-process-exit. -/
def CalmExit (s : S) : Lbl → Prop
  | .fork _ => s.g.cookie = false
  | .step t .unwind => ∀ f ∈ s.th t, f.isEp2 = false
  | .step t (.go _ _) =>
    match s.th t with
    | .px0 :: rest | .px1 :: rest => ∀ f ∈ rest, f.isEp2 = false
    | _ => True
  | _ => True

instance (s : S) (l : Lbl) : Decidable (CalmExit s l) := by
  unfold CalmExit
  split
  · infer_instance
  · infer_instance
  · split <;> infer_instance
  · infer_instance

/-- A thread of this process won the exit race. -/
def ownWinner (s : S) : Prop :=
  (∃ t how, (t, Ev.beginExit how) ∈ own s.g.tr) ∨ ∃ t f, f ∈ s.th t ∧ f.isEp2 = true

theorem ep2_go {g g' : G} {t : Tid} {ok : Bool} {v : Nat} {f : Frame} {nx : Next}
    {sp : Option Frame} (h : fstep g t ok v f = some (g', nx, sp)) :
    (g.cookie = true → g'.cookie = true) ∧
    (g.cookie = false → g'.cookie = true → ∃ l f', nx = .go l ∧ f' ∈ l ∧ f'.isEp2 = true) ∧
    (f.isEp2 = true → ∃ how, (t, Ev.beginExit how) ∈ own g'.tr) ∧
    (nx = .unwind → f = .px0 ∨ f = .px1) := by
  refine ⟨?_, ?_, ?_, ?_⟩
  · cases f <;> fstep_cases h <;> simp_all [listInit, G.emit, G.upd]
  · intro h0 h1
    cases f <;> fstep_cases h <;> first
      | (simp_all [listInit, G.emit, G.upd]; done)
      | exact ⟨_, _, rfl, List.mem_cons_self, rfl⟩
  · intro he
    cases f <;> first | (simp [Frame.isEp2] at he; done) | skip
    fstep_cases h <;> exact ⟨_, by simp only [G.emit]; rw [own_cons _ rfl]; exact List.mem_cons_self⟩
  · intro hn
    cases f <;> fstep_cases h <;> cases hn <;> simp

theorem winner_inv {s : S} (hs : ReachA CalmExit s) : s.g.cookie = true → ownWinner s := by
  induction hs with
  | init => intro h; cases h
  | @next s s' l hr hA hn ih =>
    have hm := move_of_next hn
    have set : ∀ {t : Tid} {l : List Frame}, ownWinner s →
        (∀ f ∈ s.th t, f.isEp2 = true → f ∈ l) →
        ownWinner { s with th := setTh s.th t l } := by
      rintro t l (h | ⟨u, f, hf, he⟩) hl
      · exact Or.inl h
      · refine Or.inr ⟨u, f, ?_, he⟩
        by_cases e : u = t
        · subst e; show f ∈ setTh s.th u l u; rw [setTh_self]; exact hl f hf he
        · show f ∈ setTh s.th t l u; rw [setTh_ne _ _ e]; exact hf
    cases hm with
    | @go t f rest ok v r hd ht hf =>
      obtain ⟨g', nx, sp⟩ := r
      obtain ⟨h1, h2, h3, h4⟩ := ep2_go hf
      have hmem := own_mem_fstep hf
      have hfr := fresh_inv hr s.g.nextTid (Nat.le_refl _)
      have hne : t ≠ s.g.nextTid := by
        intro e'; rw [e', hfr] at ht; cases ht
      intro hc
      have hc : g'.cookie = true := by
        rw [applyRes_g] at hc; split at hc <;> exact hc
      have hg : (applyRes s t rest (g', nx, sp)).g.tr = g'.tr := by
        rw [applyRes_g]; split <;> rfl
      unfold ownWinner
      rw [hg]
      cases hc0 : s.g.cookie with
      | false =>
        obtain ⟨l, f', rfl, hl, he⟩ := h2 hc0 hc
        refine Or.inr ⟨t, f', ?_, he⟩
        show f' ∈ setTh _ t (l ++ rest) t
        rw [setTh_self]
        exact List.mem_append_left _ hl
      | true =>
        rcases ih hc0 with ⟨u, how, hu⟩ | ⟨u, f', hu, he⟩
        · exact Or.inl ⟨u, how, hmem _ hu⟩
        · by_cases e : u = t
          · subst e
            rw [ht] at hu
            rcases List.mem_cons.1 hu with e | hu2
            · subst e
              obtain ⟨how, hh⟩ := h3 he
              exact Or.inl ⟨u, how, hh⟩
            · refine Or.inr ⟨u, f', ?_, he⟩
              cases nx with
              | go l =>
                show f' ∈ setTh _ u (l ++ rest) u
                rw [setTh_self]
                exact List.mem_append_right _ hu2
              | unwind =>
                have hA : CalmExit s (.step u (.go ok v)) := hA
                have : f'.isEp2 = false := by
                  rcases h4 rfl with e | e <;> subst e <;> simp only [CalmExit, ht] at hA <;>
                    exact hA f' hu2
                rw [he] at this; cases this
              | die =>
                show f' ∈ (match sp with
                  | some f => setTh s.th s.g.nextTid [f]
                  | none => s.th) u
                cases sp with
                | none => show f' ∈ s.th u; rw [ht]; exact List.mem_cons_of_mem _ hu2
                | some f0 =>
                  show f' ∈ setTh s.th s.g.nextTid [f0] u
                  rw [setTh_ne _ _ hne, ht]; exact List.mem_cons_of_mem _ hu2
          · refine Or.inr ⟨u, f', ?_, he⟩
            have hun : u ≠ s.g.nextTid := by
              intro e'; rw [e', hfr] at hu; cases hu
            have hth : f' ∈ (match sp with
                | some f => setTh s.th s.g.nextTid [f]
                | none => s.th) u := by
              cases sp with
              | none => exact hu
              | some f0 => show f' ∈ setTh s.th s.g.nextTid [f0] u; rw [setTh_ne _ _ hun]; exact hu
            cases nx with
            | go l => show f' ∈ setTh _ t (l ++ rest) u; rw [setTh_ne _ _ e]; exact hth
            | unwind => show f' ∈ setTh _ t (unwound rest) u; rw [setTh_ne _ _ e]; exact hth
            | die => exact hth
    | @call t f rest a hd ht hf =>
      intro hc
      exact set (ih hc) (fun f' h _ => List.mem_append_right _ (by rw [← ht]; exact h))
    | @unwind t f rest hd ht hf =>
      intro hc
      refine set (ih hc) (fun f' h he => ?_)
      have := hA f' h
      rw [he] at this; cases this
    | @deliver t f rest hd ht hon hh =>
      intro hc
      exact set (ih hc) (fun f' h _ => List.mem_cons_of_mem _ (by rw [← ht]; exact h))
    | @interrupt t f rest hd ht =>
      intro hc
      exact set (ih hc) (fun f' h _ => List.mem_cons_of_mem _ (by rw [← ht]; exact h))
    | @fork t c d rest hd ht =>
      intro hc
      have hA : s.g.cookie = false := hA
      have hc : s.g.cookie = true := hc
      rw [hA] at hc; cases hc
    | @realFork t rest hd ht =>
      intro hc
      have hA : s.g.cookie = false := hA
      have hc : s.g.cookie = true := hc
      rw [hA] at hc; cases hc

end Libmonitor.Proc
