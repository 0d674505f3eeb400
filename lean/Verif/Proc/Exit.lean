import Verif.Proc.Inv
/-!
# The exit race (main.c:300-344): invariants
-/

namespace Libmonitor.Proc

theorem occurs_cons (p : Ev → Bool) (t : Tid) (e : Ev) (tr : Hist) :
    occurs p ((t, e) :: tr) = occurs p tr + (if p e = true then 1 else 0) := by
  simp [occurs, List.countP_cons]

theorem own_sublist (tr : Hist) : List.Sublist (own tr) tr := by
  induction tr with
  | nil => exact .slnil
  | cons e tr ih =>
    obtain ⟨t, e⟩ := e
    simp only [own]
    split
    · exact List.nil_sublist _
    · exact ih.cons_cons _

theorem occurs_own (p : Ev → Bool) (tr : Hist) : occurs p (own tr) ≤ occurs p tr :=
  (own_sublist tr).countP_le

/-- The right to start fini-process. -/
def tokFini : Frame → Nat
  | .ep2 .. | .epBegin _ | .epFini0 _ => 1
  | _ => 0

/-- The right to start begin-process-exit. -/
def tokBegin : Frame → Nat
  | .ep2 .. => 1
  | _ => 0

theorem oneTok_fini {A : S → Lbl → Prop} {s : S} (hs : ReachA A s) :
    OneTok tokFini (·.cookie) (fun g => occurs Ev.isFiniProcess g.tr) s := by
  refine oneTok_inv rfl rfl rfl ?_ (fun _ => rfl) (fun _ _ => Nat.le_refl _) (Nat.le_refl _)
    (fun _ => ⟨rfl, rfl⟩) (fun _ _ _ => ⟨rfl, ?_⟩) ?_ hs
  · intro f hf
    cases f <;> first | rfl | (simp [Frame.pushable] at hf; done)
  · simp [G.emit, occurs_cons, Ev.isFiniProcess]
  · intro g t ok v f g' nx sp h0 h
    cases f <;> fstep_cases h <;>
      simp_all [listInit, G.emit, G.upd, Next.toks, toks, tokFini, occurs_cons, Ev.isFiniProcess] <;> omega

theorem oneTok_begin {A : S → Lbl → Prop} {s : S} (hs : ReachA A s) :
    OneTok tokBegin (·.cookie) (fun g => occurs Ev.isBeginExit g.tr) s := by
  refine oneTok_inv rfl rfl rfl ?_ (fun _ => rfl) (fun _ _ => Nat.le_refl _) (Nat.le_refl _)
    (fun _ => ⟨rfl, rfl⟩) (fun _ _ _ => ⟨rfl, ?_⟩) ?_ hs
  · intro f hf
    cases f <;> first | rfl | (simp [Frame.pushable] at hf; done)
  · simp [G.emit, occurs_cons, Ev.isBeginExit]
  · intro g t ok v f g' nx sp h0 h
    cases f <;> fstep_cases h <;>
      simp_all [listInit, G.emit, G.upd, Next.toks, toks, tokBegin, occurs_cons, Ev.isBeginExit] <;> omega

theorem mem_of_fstep {g g' : G} {t : Tid} {ok : Bool} {v : Nat} {f : Frame} {nx : Next}
    {sp : Option Frame} (h : fstep g t ok v f = some (g', nx, sp)) :
    ∀ e, e ∈ g.tr → e ∈ g'.tr := by
  obtain ⟨es, he⟩ := fstep_tr h
  intro e hm
  rw [he]
  exact List.mem_append_right _ hm

/-- The order of the exit callbacks. -/
def exitOrder (old : Hist) (t : Tid) : Ev → Prop
  | .beginExitRet how => (t, .beginExit how) ∈ old
  | .finiProcess how _ => (t, .beginExitRet how) ∈ old
  | .finiProcessRet how => ∃ d, (t, .finiProcess how d) ∈ old
  | _ => True

def exitFrame (g : G) (t : Tid) : Frame → Prop
  | .epBegin how => (t, .beginExit how) ∈ g.tr
  | .epFini0 how => (t, .beginExitRet how) ∈ g.tr
  | .epFini how => ∃ d, (t, .finiProcess how d) ∈ g.tr
  | _ => True

theorem exitFrame_mono {g g' : G} (h : ∀ e, e ∈ g.tr → e ∈ g'.tr) {t : Tid} {f : Frame}
    (hf : exitFrame g t f) : exitFrame g' t f := by
  cases f <;> first
    | trivial
    | exact h _ hf
    | (obtain ⟨d, hd⟩ := hf; exact ⟨d, h _ hd⟩)

theorem exitOrder_inv {A : S → Lbl → Prop} {s : S} (hs : ReachA A s) :
    Always exitOrder s.g.tr ∧ ∀ u h, h ∈ s.th u → exitFrame s.g u h := by
  refine frames_inv (GI := fun g => Always exitOrder g.tr) (FI := exitFrame)
    trivial trivial ?_ (fun _ h => h) (fun _ _ _ => exitFrame_mono (fun _ h => h)) ?_ ?_ ?_ ?_
    (fun _ => ⟨trivial, trivial⟩) (fun _ => trivial) hs
  · intro s t f rest ok v g' nx sp _ ht hG hF h
    have hm := mem_of_fstep h
    have hfr : exitFrame s.g t f := hF t f (by rw [ht]; exact List.mem_cons_self)
    refine ⟨?_, fun u h => exitFrame_mono hm, ?_, ?_⟩
    · clear hm ht hF
      cases f <;> fstep_cases h <;>
        simp_all [Always, exitOrder, exitFrame, G.emit, G.upd, listInit]
    · clear hm ht hF
      intro l hl h' hl'
      cases f <;> fstep_cases h <;> cases hl <;>
        (try simp only [List.mem_cons, List.not_mem_nil, or_false] at hl') <;>
        (try (rcases hl' with rfl | rfl)) <;> (try subst hl') <;>
        first
        | trivial
        | (simp_all [exitFrame, G.emit, G.upd]; done)
        | (split at hl' <;> simp_all [exitFrame]; done)
        | skip
    · intro f0 hsp
      cases f <;> fstep_cases h <;> cases hsp <;> trivial
  · intro g t f _ hp
    cases f <;> first | trivial | (simp [Frame.pushable] at hp; done)
  · intro g t f n _ _; trivial
  · intro g t real h; exact ⟨trivial, h⟩
  · intro g t real u h hf
    exact exitFrame_mono (fun _ hm => List.mem_cons_of_mem _ hm) hf

/-- Fini-process has returned, or a thread took the repeat-winner path. -/
def released (tr : Hist) : Prop :=
  (∃ t how, (t, Ev.finiProcessRet how) ∈ tr) ∨ (∃ t how, (t, Ev.resume how .again) ∈ tr)

theorem released_mono {a b : Hist} (h : ∀ e, e ∈ a → e ∈ b) (hr : released a) : released b := by
  rcases hr with ⟨t, how, hm⟩ | ⟨t, how, hm⟩
  · exact Or.inl ⟨t, how, h _ hm⟩
  · exact Or.inr ⟨t, how, h _ hm⟩

def doneFrame (g : G) (_t : Tid) : Frame → Prop
  | .epDone _ .win => ∃ t how, (t, Ev.finiProcessRet how) ∈ g.tr
  | .epDone _ .lose => released g.tr
  | _ => True

theorem doneFrame_mono {g g' : G} (h : ∀ e, e ∈ g.tr → e ∈ g'.tr) {t : Tid} {f : Frame}
    (hf : doneFrame g t f) : doneFrame g' t f := by
  cases f <;> try trivial
  rename_i how w
  cases w with
  | win => obtain ⟨t, how, hm⟩ := hf; exact ⟨t, how, h _ hm⟩
  | again => trivial
  | lose => exact released_mono h hf

theorem released_emit {g : G} {t : Tid} {e : Ev} (h : released g.tr) :
    released (g.emit t e).tr :=
  released_mono (fun _ hm => List.mem_cons_of_mem _ hm) h

theorem done_inv {A : S → Lbl → Prop} {s : S} (hs : ReachA A s) :
    (s.g.finiProcDone = true → released s.g.tr) ∧ ∀ u h, h ∈ s.th u → doneFrame s.g u h := by
  refine frames_inv (GI := fun g => g.finiProcDone = true → released g.tr) (FI := doneFrame)
    (fun h => by cases h) trivial ?_ (fun _ h => h) (fun _ _ _ => doneFrame_mono (fun _ h => h))
    ?_ ?_ ?_ ?_ (fun _ => ⟨trivial, trivial⟩) (fun _ => trivial) hs
  · intro s t f rest ok v g' nx sp _ ht hG hF h
    have hm := mem_of_fstep h
    have hfr : doneFrame s.g t f := hF t f (by rw [ht]; exact List.mem_cons_self)
    refine ⟨?_, fun u h => doneFrame_mono hm, ?_, ?_⟩
    · intro hd
      by_cases hd0 : s.g.finiProcDone = true
      · exact released_mono hm (hG hd0)
      · clear hG ht hF
        cases f <;> fstep_cases h <;> try (exact absurd hd hd0)
        all_goals try (simp [G.emit, G.upd] at hd; exact absurd hd hd0)
        all_goals try (simp at hd; done)
        rename_i how w
        cases w with
        | win => exact released_emit (Or.inl hfr)
        | again => exact Or.inr ⟨t, how, List.mem_cons_self⟩
        | lose => exact released_emit hfr
    · clear hm ht hF
      intro l hl h' hl'
      cases f <;> fstep_cases h <;> cases hl <;>
        (try simp only [List.mem_cons, List.not_mem_nil, or_false] at hl') <;>
        (try (rcases hl' with rfl | rfl)) <;> (try subst hl') <;>
        first
        | trivial
        | (split at hl' <;> simp_all [doneFrame]; done)
        | (exact hG (by assumption))
        | exact ⟨_, _, List.mem_cons_self⟩
    · intro f0 hsp
      cases f <;> fstep_cases h <;> cases hsp <;> trivial
  · intro g t f _ hp
    cases f <;> first | trivial | (simp [Frame.pushable] at hp; done)
  · intro g t f n _ _; trivial
  · intro g t real h hd; exact released_emit (h hd)
  · intro g t real u h hf
    exact doneFrame_mono (fun _ hm => List.mem_cons_of_mem _ hm) hf

/-- Frames in which a call of monitor_end_process_fcn is in progress. -/
def Frame.isEp : Frame → Bool
  | .ep0 _ | .ep1 .. | .ep2 .. | .epBegin _ | .epFini0 _ | .epFini _ | .epWait _ | .epDone .. => true
  | _ => false

/-- Frames of functions that wait for monitor_end_process_fcn or are past it. -/
def Frame.isX : Frame → Bool
  | .xUExit2 hooked | .xExec2 hooked => hooked
  | .xMain | .xExit | .xUExit | .xExec | .xSig _ | .xSig2 _ => true
  | _ => false

/-- Every waiting frame has a call of monitor_end_process_fcn directly above it. -/
def Cov : Option Frame → List Frame → Prop
  | _, [] => True
  | o, b :: bs => (b.isX = true → ∃ a, o = some a ∧ a.isEp = true) ∧ Cov (some b) bs

theorem cov_weaken {f : Frame} {o : Option Frame} {l : List Frame} (h : Cov (some f) l)
    (hf : f.isEp = true → ∃ a, o = some a ∧ a.isEp = true) : Cov o l := by
  cases l with
  | nil => trivial
  | cons b bs =>
    refine ⟨fun hx => ?_, h.2⟩
    obtain ⟨a, ha, he⟩ := h.1 hx
    injection ha with ha
    exact hf (ha ▸ he)

theorem cov_none {o : Option Frame} {l : List Frame} (h : Cov none l) : Cov o l := by
  cases l with
  | nil => trivial
  | cons b bs =>
    refine ⟨fun hx => ?_, h.2⟩
    obtain ⟨a, ha, _⟩ := h.1 hx
    cases ha

/-- No real exit before the release. -/
def exitReleased (old : Hist) (_t : Tid) (e : Ev) : Prop := e.isHookedExit = true → released old

theorem cov_inv {A : S → Lbl → Prop} {s : S} (hs : ReachA A s) :
    Always exitReleased s.g.tr ∧ ∀ u, released s.g.tr ∨ Cov none (s.th u) := by
  refine stack_inv (GI := fun g => Always exitReleased g.tr)
    (SI := fun g _ l => released g.tr ∨ Cov none l)
    trivial (Or.inr ⟨fun h => (by cases h), trivial⟩) ?_ (fun _ h => h) (fun _ _ _ h => h)
    ?_ ?_ ?_ ?_ ?_ (Or.inr trivial) ?_ ?_ hs
  · intro s t f rest ok v g' nx sp hr _ ht hG hS h
    have hm := mem_of_fstep h
    have hst := hS t
    rw [ht] at hst
    have hdone := (done_inv hr).2 t f (by rw [ht]; exact List.mem_cons_self)
    refine ⟨?_, fun u _ hu => hu.imp (released_mono hm) id, ?_, ?_, ?_, ?_⟩
    · clear hdone hS ht
      cases f <;> fstep_cases h <;>
        simp_all [Always, exitReleased, Ev.isHookedExit, G.emit, G.upd, listInit, Cov, Frame.isX]
      all_goals (intro hb; subst hb; simpa using hst)
    · intro _
      exact hst.imp (released_mono hm) id
    · intro hnx
      rcases hst with hst | hst
      · exact Or.inl (released_mono hm hst)
      · refine Or.inr (cov_weaken hst.2 ?_)
        clear hdone hS ht hm
        intro he
        cases f <;> first | (simp [Frame.isEp] at he; done) | (fstep_cases h <;> cases hnx)
    · intro l hl
      rcases hst with hst | hst
      · exact Or.inl (released_mono hm hst)
      · clear hS ht hm hG
        by_cases he : f.isEp = true
        · cases f <;> first | (simp [Frame.isEp] at he; done) | skip
          all_goals fstep_cases h <;> cases hl <;> try
            (refine Or.inr ⟨fun hx => by simp [Frame.isX] at hx, ?_⟩
             exact cov_weaken hst.2 (fun _ => ⟨_, rfl, rfl⟩))
          · refine Or.inr ⟨fun hx => by simp [Frame.isX] at hx,
              fun hx => by simp [Frame.isX] at hx, ?_⟩
            exact cov_weaken hst.2 (fun _ => ⟨_, rfl, rfl⟩)
          · rename_i how w
            left
            cases w with
            | win => exact released_emit (Or.inl hdone)
            | again => exact Or.inr ⟨t, how, List.mem_cons_self⟩
            | lose => exact released_emit hdone
        · have hc : ∀ o, Cov o rest := fun o => cov_weaken hst.2 (fun h => absurd h he)
          right
          cases f <;> fstep_cases h <;> cases hl <;>
            simp_all [Cov, Frame.isX, Frame.isEp]
    · intro f0 hsp
      right
      cases f <;> fstep_cases h <;> cases hsp <;> simp [Cov, Frame.isX]
  · rintro g t f rest a - hf (hst | hst)
    · exact Or.inl hst
    · refine Or.inr ?_
      cases a <;> simp only [Api.frames] <;> (try split) <;>
        simp_all [Cov, Frame.isX, Frame.isEp]
      all_goals
        intro hx
        exact absurd hx (by cases f <;> simp [Frame.isX, Frame.foreign] at * )
  · rintro g t rest - - (hst | hst)
    · exact Or.inl hst
    · exact Or.inr ⟨fun hx => by simp [Frame.isX] at hx, cov_none hst⟩
  · rintro g t rest - (hst | hst)
    · exact Or.inl hst
    · exact Or.inr ⟨fun hx => by simp [Frame.isX] at hx, cov_none hst⟩
  · rintro g t l - (hst | hst)
    · exact Or.inl hst
    · right
      rcases unwound_cases l with h | ⟨_, n, _, _, h⟩ <;> rw [h] <;> simp [Cov, Frame.isX]
  · intro s t real _ _ h
    exact ⟨fun hx => by simp [Ev.isHookedExit] at hx, h⟩
  · rintro s t c d rest - - - - (hst | hst)
    · exact Or.inl (released_emit hst)
    · exact Or.inr ⟨fun hx => by simp [Frame.isX] at hx, fun hx => by simp [Frame.isX] at hx,
        cov_weaken hst.2 (fun h => by simp [Frame.isEp] at h)⟩
  · rintro s t rest - - - - (hst | hst)
    · exact Or.inl (released_emit hst)
    · exact Or.inr ⟨fun hx => by simp [Frame.isX] at hx,
        cov_weaken hst.2 (fun h => by simp [Frame.isEp] at h)⟩

end Libmonitor.Proc
