import Verif.Proc.BroadInv
import Verif.Proc.Scan
import Verif.Proc.SpecKill
/-!
# Which threads on the list are alive
-/

namespace Libmonitor.Proc

/-- Frames of the exit cleanup after its beginning, and of the fini-thread callbacks it causes. -/
def Frame.shot : Frame → Bool
  | .sd3 | .sdScan .. | .sdKill .. | .sdScan2 .. | .sdDone _ | .sdMy _ | .h0 => true
  | .fin0 _ src | .finCb _ src _ => !decide (src = .cleanup)
  | _ => false

theorem shot_push {f : Frame} (h : f.pushable = true) (h0 : f ≠ .h0) : f.shot = false := by
  cases f <;> first | rfl | (cases h; done) | exact absurd rfl h0

theorem shot_inv {A : S → Lbl → Prop} {s : S} (hs : ReachA A s) {u : Tid} {f : Frame}
    (hf : f ∈ s.th u) (h : f.shot = true) : s.g.inExit = true := by
  refine (stack_inv (A := A) (GI := fun g => g.handlerOn = true → g.inExit = true)
    (SI := fun g _ l => ∀ f ∈ l, f.shot = true → g.inExit = true)
    (fun h => by cases h) ?_ ?_ (fun _ h => h) (fun _ _ _ h => h) ?_ ?_ ?_ ?_ (fun _ _ h => h)
    (fun f h => by cases h) ?_ ?_ hs).2 u f hf h
  · intro f hf h; rw [List.mem_singleton.1 hf] at h; cases h
  · intro s t f rest ok v g' nx sp hr hA ht hG hS h
    have hSt := hS t
    rw [ht] at hSt
    have hf := hSt f List.mem_cons_self
    have hrest : ∀ h' ∈ rest, h'.shot = true → g'.inExit = true := fun h' hm hl =>
      inExit_keep h (hSt h' (List.mem_cons_of_mem _ hm) hl)
    refine ⟨?_, fun u _ hu f hm hl => inExit_keep h (hu f hm hl), ?_, fun _ => hrest, ?_, ?_⟩
    · intro hon
      cases hh : s.g.handlerOn with
      | true => exact inExit_keep h (hG hh)
      | false =>
        refine inExit_keep h (hf ?_)
        clear hf hS hSt hrest hA
        cases f <;> fstep_cases h <;> first
          | rfl
          | (rw [hh] at hon; cases hon)
          | (simp [listInit, G.emit, G.upd, hh] at hon; done)
    · intro _ h' hm hl
      exact inExit_keep h (hSt h' hm hl)
    · intro l e h' hm hl
      rcases List.mem_append.1 hm with hm | hm
      · subst e
        clear hS hSt hrest hA ht hG
        cases f <;> fstep_cases h <;> first
          | (cases hm; done)
          | (rw [List.mem_singleton] at hm; subst hm; first | (cases hl; done) | exact hf rfl | (exact hf hl) | assumption)
          | (simp only [List.mem_cons, List.not_mem_nil, or_false] at hm
             rcases hm with hm | hm <;> subst hm <;> cases hl; done)
          | rfl
          | skip
        rename_i hc _
        simp only [Bool.and_eq_true] at hc
        exact hc.1
      · exact hrest h' hm hl
    · intro f0 e h' hm hl
      rw [List.mem_singleton] at hm; subst hm
      cases f <;> fstep_cases h <;> cases e <;> cases hl
  · intro g t f rest a _ _ hS f hm hl
    rcases List.mem_append.1 hm with hm | hm
    · have hp := api_pushable hm
      rw [shot_push hp (fun e => by subst e; cases a <;> simp [Api.frames] at hm; split at hm <;> simp at hm)] at hl
      cases hl
    · exact hS f hm hl
  · intro g t rest hG hon hS f hm hl
    exact hG hon
  · intro g t rest _ hS f hm hl
    rcases List.mem_cons.1 hm with e | hm
    · subst e; cases hl
    · exact hS f hm hl
  · intro g t l _ hS f hm hl
    rcases unwound_cases l with e | ⟨_, n, _, _, e⟩ <;> rw [e] at hm <;> simp at hm
    · subst hm; cases hl
    · rcases hm with hm | hm <;> subst hm <;> cases hl
  · intro s t c d rest _ _ _ _ hS f hm hl
    rcases List.mem_cons.1 hm with e | hm
    · subst e; cases hl
    rcases List.mem_cons.1 hm with e | hm
    · subst e; cases hl
    exact hS f (List.mem_cons_of_mem _ hm) hl
  · intro s t rest _ _ _ _ hS f hm hl
    rcases List.mem_cons.1 hm with e | hm
    · subst e; cases hl
    exact hS f (List.mem_cons_of_mem _ hm) hl

/-- The frames of a thread before it has started its fini-thread callback by itself. -/
def Frame.before : Frame → Bool
  | .bt0 _ | .bt1 _ | .bt2 _ | .bt3 _ | .btInit _ | .bt4 _ | .bt5 _ | .btApp _ | .cl0 _ => true
  | .fin0 _ src => decide (src = .cleanup)
  | _ => false

theorem before_armed {f : Frame} {n : NodeId} (h : f.armed = some n) : f.before = true := by
  cases f <;> first | rfl | cases h

theorem before_none {g : G} {u : Tid} {f : Frame} (h : f.before = false) : ∀ n, f.thr = some n →
    f.before = true → u ≠ mainOf g.tr → g.inExit = false → (g.nodes n).finiS = false :=
  fun _ _ hb => by rw [h] at hb; cases hb

/-- Before the thread's cleanup routine, fini-thread is started by the exit cleanup only. -/
theorem before_inv {s : S} (hs : ReachA Clean s) {u : Tid} {f : Frame} (hf : f ∈ s.th u) : ∀ n,
    f.thr = some n → f.before = true → u ≠ mainOf s.g.tr → s.g.inExit = false →
    (s.g.nodes n).finiS = false := by
  refine (frames_invA (A := Clean) (GI := fun _ => True) (FI := fun g u f => ∀ n, f.thr = some n →
    f.before = true → u ≠ mainOf g.tr → g.inExit = false → (g.nodes n).finiS = false) trivial
    (before_none rfl) ?_ (fun _ h => h) (fun _ _ _ h => h) ?_ ?_ ?_ ?_ hs).2 u f hf
  · intro s t f rest ok v g' nx sp hr hA ht _ hF h
    have hft : f ∈ s.th t := by rw [ht]; exact List.mem_cons_self
    have hmo := mainOf_fstep h
    have hx0 : g'.inExit = false → s.g.inExit = false := fun e => by
      cases e2 : s.g.inExit with
      | false => rfl
      | true => rw [inExit_keep h e2] at e; cases e
    have hold : ∀ u h', h' ∈ s.th u → (u = t → h' ∈ rest) → ∀ n, h'.thr = some n →
        h'.before = true → u ≠ mainOf g'.tr → g'.inExit = false → (g'.nodes n).finiS = false := by
      intro u h' hm hor n hn hb hu hx
      rw [hmo] at hu
      have hi := hF u h' hm n hn hb hu (hx0 hx)
      rcases (core_owned hr ht h hm hor (Or.inr ⟨hu, hn⟩)).2.1 with e | ⟨e1, src, e2⟩
      · rw [e]; exact hi
      · exfalso
        by_cases es : src = .cleanup
        · have hsh := shape_inv hr t
          rw [ht] at hsh
          have := hsh.2.1 (by rw [e2]; simp [Frame.cleanup, es])
          have hm' := hor e1
          rw [this, List.mem_singleton] at hm'
          subst hm'; cases hn
        · have := shot_inv hr hft (by rw [e2]; simp [Frame.shot, es])
          rw [hx0 hx] at this; cases this
    have hi := hF t f hft
    refine ⟨trivial, hold, ?_, ?_, ?_, ?_⟩
    · intro e n hn hb hu hx
      rw [hmo] at hu
      have hi2 := hi n hn hb hu (hx0 hx)
      subst e
      clear hF hold hA ht hft hi
      cases f <;> first | (cases hb; done) | skip
      all_goals fstep_cases h <;> exact hi2
    · intro l e h' hm n hn hb hu hx
      rw [hmo] at hu
      subst e
      by_cases ht0 : f.thr = some n
      · by_cases hb0 : f.before = true
        · have hi2 := hi n ht0 hb0 hu (hx0 hx)
          clear hF hold hA ht hft hi
          cases f <;> first | (cases hb0; done) | (cases ht0; done) | skip
          all_goals fstep_cases h <;>
            simp only [List.mem_cons, List.not_mem_nil, or_false] at hm <;> (try (rcases hm with hm | hm)) <;>
            (try subst hm) <;> first
            | (cases hm; done)
            | (cases hb; done)
            | exact hi2
            | (simp only [G.emit, G.upd]; split <;> exact hi2; done)
            | (injection ht0 with e; subst e; simp only [G.emit, G.upd, if_true]; exact hi2)
            | (simp [Frame.before] at hb; done)
        · exfalso
          clear hF hold hA ht hft hi
          cases f <;> first | (cases ht0; done) | (exact hb0 rfl) | skip
          all_goals fstep_cases h <;>
            simp only [List.mem_cons, List.not_mem_nil, or_false] at hm <;> (try subst hm) <;> first
            | (cases hb; done)
            | (simp [Frame.before] at hb; done)
            | (split at hm <;> simp at hm; subst hm; cases hb)
            | skip
      · exfalso
        clear hF hold hA ht hft hi
        cases f <;> fstep_cases h <;>
            simp only [List.mem_cons, List.not_mem_nil, or_false] at hm <;> (try (rcases hm with hm | hm)) <;>
            (try subst hm) <;> first
            | (cases hm; done)
            | (cases hn; done)
            | (cases hb; done)
            | exact ht0 hn
            | skip
    · intro h' e n hn hb hu hx
      subst e
      have hN := (recI_inv hr hft).1
      clear hF hold hA ht hft hi
      cases f <;> fstep_cases h <;> first | (cases hn; done) | skip
      injection hn with e
      subst e
      exact (hN _ rfl).2.1
    · intro e h' hm
      rcases unwound_cases rest with e | ⟨f', m, hf', ha, e⟩
      · rw [e, List.mem_singleton] at hm; subst hm
        exact before_none rfl
      · rw [e] at hm
        rcases List.mem_cons.1 hm with hm | hm
        · subst hm
          intro n hn hb
          injection hn with hn; subst hn
          exact hold t f' (by rw [ht]; exact List.mem_cons_of_mem _ hf') (fun _ => hf') m
            (thr_of_armed ha).1 (before_armed ha)
        · rw [List.mem_singleton] at hm; subst hm
          exact before_none rfl
  · intro s t i h _ _ _ _ _ _ _ hp _
    refine before_none ?_
    cases h <;> first | rfl | (cases hp; done)
  · intro s t hr hA _ hne hF h' hm
    rcases unwound_cases (s.th t) with e | ⟨f', m, hf', ha, e⟩
    · rw [e, List.mem_singleton] at hm; subst hm
      exact before_none rfl
    · rw [e] at hm
      rcases List.mem_cons.1 hm with hm | hm
      · subst hm
        intro n hn hb
        injection hn with hn; subst hn
        exact hF t f' hf' m (thr_of_armed ha).1 (before_armed ha)
      · rw [List.mem_singleton] at hm; subst hm
        exact before_none rfl
  · intro s t c d rest hr hA ht _ hF
    refine ⟨trivial, fun h' hm n hn hb hu => absurd ?_ hu⟩
    simp [G.emit, mainOf, Ev.isForked]
  · intro s t rest hr hA ht _ hF
    refine ⟨trivial, fun h' hm n hn hb hu => absurd ?_ hu⟩
    simp [G.emit, mainOf, Ev.isForked]

theorem apply_push {s : S} {t : Tid} {pre : List Frame} {f0 : Frame} {rest : List Frame}
    (ht : s.th t = f0 :: rest) {u : Tid} {f : Frame}
    (hf : f ∈ setTh s.th t (pre ++ f0 :: rest) u) : f ∈ pre ∨ f ∈ s.th u := by
  by_cases e : u = t
  · subst e
    rw [setTh_self] at hf
    rw [ht]
    exact List.mem_append.1 hf
  · rw [setTh_ne _ _ e] at hf; exact Or.inr hf

theorem unwound_no {l : List Frame} {f : Frame} (hf : f ∈ unwound l) : f ≠ .qBlock true := by
  rcases unwound_cases l with e | ⟨_, n, _, _, e⟩ <;> rw [e] at hf <;> simp at hf
  · subst hf; simp
  · rcases hf with hf | hf <;> subst hf <;> simp

theorem reset_block {g : G} {t : Tid} (h : ∀ n, (g.nodes n).block = false) (n : NodeId) :
    ((resetList g t).nodes n).block = false := by
  unfold resetList
  split
  · simp only
    split
    · unfold resetMain
      split
      · exact h _
      · split
        · exact h _
        · rfl
    · exact h n
  · exact h n

/-- Nobody's fini-thread callback is blocked. -/
theorem noBlock_inv {s : S} (hs : ReachA CleanTame s) :
    (∀ n, (s.g.nodes n).block = false) ∧ ∀ u, .qBlock true ∉ s.th u := by
  induction hs with
  | init =>
    refine ⟨fun n => ?_, fun u h => ?_⟩
    · cases n <;> rfl
    · simp only at h
      split at h <;> simp at h
  | @next s s' l hr hA hn ih =>
    obtain ⟨iG, iF⟩ := ih
    have hm := move_of_next hn
    cases hm with
    | @go t f rest ok v r hd ht hf =>
      obtain ⟨g', nx, sp⟩ := r
      have hft : f ≠ .qBlock true := fun e => iF t (by rw [ht, e]; exact List.mem_cons_self)
      have hrest : .qBlock true ∉ rest := fun e => iF t (by rw [ht]; exact List.mem_cons_of_mem _ e)
      have h1 : ∀ n, (g'.nodes n).block = false := by
        intro n
        have := iG n
        have hmain := iG .main
        clear iF hrest hn hA ht
        cases f <;> fstep_cases hf <;> first
          | exact this
          | (simp only [G.emit, G.upd, listInit]; split <;> first | exact this | rfl; done)
          | (simp only [G.emit, G.upd]; split <;> exact reset_block iG _; done)
          | exact reset_block iG _
          | skip
        rename_i b _ _ _
        have hb : b = false := by
          cases b with
          | false => rfl
          | true => exact absurd rfl hft
        simp only [G.upd]
        split
        · exact hb
        · exact this
      have h2 : ∀ l, nx = .go l → .qBlock true ∉ l := by
        intro l e hc
        subst e
        clear iF hrest hn hA ht iG h1
        cases f <;> fstep_cases hf <;>
          simp only [List.mem_cons, List.not_mem_nil, or_false, reduceCtorEq] at hc
      have h3 : ∀ f0, sp = some f0 → f0 ≠ .qBlock true := by
        intro f0 e hc
        subst e
        subst hc
        clear iF hrest hn hA ht iG h1 h2
        cases f <;> fstep_cases hf
      have h4 : ∀ u, .qBlock true ∉ (match sp with
          | some f => setTh s.th s.g.nextTid [f]
          | none => s.th) u := by
        intro u hc
        cases sp with
        | none => exact iF u hc
        | some f0 =>
          simp only at hc
          by_cases e : u = s.g.nextTid
          · subst e
            rw [setTh_self, List.mem_singleton] at hc
            exact h3 f0 rfl hc.symm
          · rw [setTh_ne _ _ e] at hc; exact iF u hc
      cases nx with
      | go l =>
        refine ⟨h1, fun u hc => ?_⟩
        simp only [applyRes] at hc
        by_cases e : u = t
        · subst e
          rw [setTh_self] at hc
          rcases List.mem_append.1 hc with hc | hc
          · exact h2 l rfl hc
          · exact hrest hc
        · rw [setTh_ne _ _ e] at hc; exact h4 u hc
      | unwind =>
        refine ⟨h1, fun u hc => ?_⟩
        simp only [applyRes] at hc
        by_cases e : u = t
        · subst e
          rw [setTh_self] at hc
          exact unwound_no hc rfl
        · rw [setTh_ne _ _ e] at hc; exact h4 u hc
      | die => exact ⟨h1, h4⟩
    | @call t f rest a hd ht hf =>
      refine ⟨iG, fun u hc => ?_⟩
      rcases apply_push ht hc with hc | hc
      · have : a = .block true := by
          cases a <;> simp [Api.frames] at hc
          · split at hc <;> simp at hc
          · rw [← hc]
        subst this
        exact hA.2
      · exact iF u hc
    | @unwind t f rest hd ht hf =>
      refine ⟨iG, fun u hc => ?_⟩
      by_cases e : u = t
      · subst e; simp only [setTh_self] at hc; exact unwound_no hc rfl
      · simp only [setTh_ne _ _ e] at hc; exact iF u hc
    | @deliver t f rest hd ht _ _ =>
      refine ⟨iG, fun u hc => ?_⟩
      rcases apply_push (pre := [.h0]) ht hc with hc | hc
      · simp at hc
      · exact iF u hc
    | @interrupt t f rest hd ht =>
      refine ⟨iG, fun u hc => ?_⟩
      rcases apply_push (pre := [.app]) ht hc with hc | hc
      · simp at hc
      · exact iF u hc
    | @fork t c d rest hd ht =>
      refine ⟨iG, fun u hc => ?_⟩
      by_cases e : u = t
      · subst e; simp only [setTh_self] at hc
        simp at hc
        exact iF u (by rw [ht]; exact List.mem_cons_of_mem _ hc)
      · simp only [setTh_ne _ _ e] at hc; cases hc
    | @realFork t rest hd ht =>
      refine ⟨iG, fun u hc => ?_⟩
      by_cases e : u = t
      · subst e; simp only [setTh_self] at hc
        simp at hc
        exact iF u (by rw [ht]; exact List.mem_cons_of_mem _ hc)
      · simp only [setTh_ne _ _ e] at hc; cases hc

theorem inExit_inv {A : S → Lbl → Prop} {s : S} (hs : ReachA A s) :
    (s.g.finiThreadDone = true → s.g.inExit = true) ∧
    (s.g.inExit = true → ∃ w, (w, .shootdown) ∈ s.g.tr) := by
  refine glob_inv (A := A) (GI := fun g => (g.finiThreadDone = true → g.inExit = true) ∧
    (g.inExit = true → ∃ w, (w, Ev.shootdown) ∈ g.tr)) ⟨fun h => (by cases h), fun h => (by cases h)⟩
    ?_ (fun _ h => h) ?_ hs
  · intro s t f rest ok v g' nx sp hr hA ht hG h
    have hmem := mem_of_fstep h
    have hsh := shot_inv hr (f := f) (u := t) (by rw [ht]; exact List.mem_cons_self)
    refine ⟨fun hd => ?_, fun hx => ?_⟩
    · refine inExit_keep h ?_
      by_cases h0 : s.g.finiThreadDone = true
      · exact hG.1 h0
      · apply hsh
        clear hG hmem ht
        cases f <;> fstep_cases h <;> first
          | rfl
          | (exact absurd hd h0)
          | (simp [listInit, G.emit, G.upd, resetList] at hd
             try split at hd
             all_goals exact absurd hd h0)
    · by_cases h0 : s.g.inExit = true
      · obtain ⟨w, hw⟩ := hG.2 h0
        exact ⟨w, hmem _ hw⟩
      · clear hG hmem ht
        cases f <;> fstep_cases h <;> first
          | (exact absurd hx h0)
          | exact ⟨t, List.mem_cons_self⟩
          | (simp [listInit, G.emit, G.upd, resetList] at hx
             try split at hx
             all_goals exact absurd hx h0)
  · intro s t real _ hG
    refine ⟨hG.1, fun hx => ?_⟩
    obtain ⟨w, hw⟩ := hG.2 hx
    exact ⟨w, List.mem_cons_of_mem _ hw⟩

theorem done_keep {g g' : G} {t : Tid} {ok : Bool} {v : Nat} {f : Frame} {nx : Next}
    {sp : Option Frame} (h : fstep g t ok v f = some (g', nx, sp)) (hi : g.finiThreadDone = true) :
    g'.finiThreadDone = true := by
  cases f <;> fstep_cases h <;> first
    | exact hi
    | rfl
    | (simp only [listInit, G.emit, G.upd, resetList]; try split
       all_goals exact hi)

/-- A record on the list whose thread is in its start routine belongs to a thread that has not
ended, unless the thread ended during the exit cleanup. -/
def Alive (g : G) (u : Tid) (l : List Frame) : Prop :=
  born g.tr = false → ∀ n, n ∈ g.list → n ≠ .main → (g.nodes n).self = some u →
    (g.nodes n).appl = true → (∃ f ∈ l, f.thr = some n) ∨ g.finiThreadDone = true ∨
      ((g.nodes n).finiS = true ∧ g.inExit = true)

/-- What is left of a thread that ends before its cleanup routine. -/
theorem thr_unwound {s : S} (hr : ReachA Clean s) {t : Tid} {l : List Frame} {f : Frame} {n : NodeId}
    (hl : s.th t = l ∨ ∃ f0, s.th t = f0 :: l) (hf : f ∈ l) (hn : f.thr = some n)
    (hu : f.unlinked ≠ some n) (htd : .tdtor ∉ s.th t) :
    ∃ f ∈ unwound l, f.thr = some n := by
  have hsh : Shape l := by
    have := shape_inv hr t
    rcases hl with e | ⟨f0, e⟩
    · rw [e] at this; exact this
    · rw [e] at this; exact this.2.2
  have htd : .tdtor ∉ l := by
    rcases hl with e | ⟨f0, e⟩
    · rw [e] at htd; exact htd
    · rw [e] at htd; exact fun h => htd (List.mem_cons_of_mem _ h)
  obtain ⟨a, b, e, h1, h2, _⟩ := shape_mem hsh hf
  subst e
  by_cases hc : f.cleanup = true
  · exact absurd (by rw [h2 hc]; simp) htd
  · have ha : f.armed = some n := by
      cases f <;> simp [Frame.thr, Frame.unlinked, Frame.cleanup, Frame.armed] at hn hu hc ⊢ <;>
        first | exact hn | exact absurd hn hu | exact absurd hn.1 hc
    have hb : b = [] := h1 (by cases f <;> first | rfl | cases ha)
    subst hb
    refine ⟨.cl0 n, ?_, rfl⟩
    unfold unwound
    rw [List.getLast?_append]
    simp only [List.getLast?_singleton, Option.some_or]
    cases f <;> first | (cases ha; done) | skip
    all_goals
      injection ha with ha
      subst ha
      simp

theorem alive_inv {s : S} (hs : ReachA CleanTame s) (u : Tid) : Alive s.g u (s.th u) := by
  refine (stack_invA (A := CleanTame) (GI := fun _ => True) (SI := Alive) trivial ?_ ?_ ?_
    (fun _ h => h) (fun _ _ _ h => h) ?_ ?_ ?_ ?_ hs).2 u
  · intro _ n h; cases h
  · intro _ _ _ n h; cases h
  · intro s t f rest ok v g' nx sp hrT hA ht _ hS h
    have hr : ReachA Clean s := reach_mono (fun _ _ h => h.1) hrT
    have hft : f ∈ s.th t := by rw [ht]; exact List.mem_cons_self
    have hB := (noBlock_inv hrT).1
    -- records that were on the list
    have old : ∀ n, born g'.tr = false → n ∈ g'.list → n ≠ .main → f ≠ .bt2 n →
        born s.g.tr = false ∧ n ∈ s.g.list ∧ (f = .ul1 n → s.g.inExit = true) := by
      intro n hb' hl hn hf2
      cases hb : born s.g.tr with
      | true =>
        obtain ⟨_, h2, _⟩ := birth_step hr ht hb
        exact absurd (reset_list h2 hb (fun hu => ((base_inv hr).1.2 hu).1) h hb' n hl) hn
      | false =>
        rcases list_new h hn hl with ⟨hl0, hul⟩ | e
        · refine ⟨rfl, hl0, fun e => ?_⟩
          rcases hul e with hx | hx
          · exact hx
          · have := (list_excl hr hn hb hl0).1; omega
        · exact absurd e hf2
    -- the stack of another thread
    have others : ∀ u, u ≠ t → Alive g' u (s.th u) := by
      intro u hut hb' n hl hn hself happ
      have hne : f ≠ .bt2 n := by
        intro e
        subst e
        have htm := thr_ne_main hr hft (n := n) rfl rfl
        have o2 := (self_inv hr hft (Or.inr ⟨htm, rfl⟩)).2 rfl (by simp)
        have : (g'.nodes n).self = (s.g.nodes n).self := by
          fstep_cases h <;> simp [G.emit, G.upd]
        rw [this, o2] at hself
        injection hself with hself
        exact hut hself.symm
      obtain ⟨hb, hl0, hul⟩ := old n hb' hl hn hne
      obtain ⟨hc, hav, hex⟩ := list_excl hr hn hb hl0
      have hk := (list_self_keep hr ht h hb hn hl0 hul).1
      have hnode : g'.nodes n = s.g.nodes n := by
        refine node_keep h (fun hw => ?_)
        rcases write_owner hr ht hn hw with ⟨f', hf', hcl⟩ | hav'
        · have := (self_inv hr hf' hcl).2
          rcases hcl with hcl | ⟨_, hcl⟩
          · exact (hex t f' hf').1 hcl
          · have hs := this ?_ ?_
            · rw [hk, hs] at hself
              injection hself with hself
              exact hut hself.symm
            · cases f' <;> first | rfl | cases hcl
            · intro e; subst e; exact (hex t _ hf').2 rfl
        · omega
      rw [hnode] at hself happ ⊢
      rcases hS u hb n hl0 hn hself happ with h1 | h1 | ⟨h1, h2⟩
      · exact Or.inl h1
      · exact Or.inr (Or.inl (done_keep h h1))
      · exact Or.inr (Or.inr ⟨h1, inExit_keep h h2⟩)
    -- the thread itself, while its outermost call goes on
    have self : ∀ n, born g'.tr = false → n ∈ g'.list → n ≠ .main → (g'.nodes n).self = some t →
        (g'.nodes n).appl = true → f.thr ≠ some n → (∃ f' ∈ rest, f'.thr = some n) ∨
        g'.finiThreadDone = true ∨ ((g'.nodes n).finiS = true ∧ g'.inExit = true) := by
      intro n hb' hl hn hself happ hthr
      obtain ⟨hb, hl0, hul⟩ := old n hb' hl hn (fun e => hthr (by rw [e]; rfl))
      obtain ⟨hc, hav, hex⟩ := list_excl hr hn hb hl0
      rw [(list_self_keep hr ht h hb hn hl0 hul).1] at hself
      have hck := core_keep h hn (fun hsh => by
        rcases shapes_claims hr hft hsh with hcl | ⟨_, hcl⟩
        · exact (hex t f hft).1 hcl
        · exact hthr hcl) (fun a c my st ar d _ ha e => by
        have := alloc_pos (arr_inv hr) ha
        rw [e] at this; omega)
      rw [(core_eq hck.1).2.2.2.2] at happ
      rcases hS t hb n hl0 hn hself happ with ⟨f', h1, h2⟩ | h1 | ⟨h1, h2⟩
      · rw [ht] at h1
        rcases List.mem_cons.1 h1 with e | h1
        · rw [e] at h2; exact absurd h2 hthr
        · exact Or.inl ⟨f', h1, h2⟩
      · exact Or.inr (Or.inl (done_keep h h1))
      · refine Or.inr (Or.inr ⟨?_, inExit_keep h h2⟩)
        rcases hck.2.1 with e | ⟨src, e⟩
        · rw [e]; exact h1
        · subst e
          fstep_cases h
          simp [G.emit, G.upd]
    refine ⟨trivial, fun u hut _ => others u hut, ?_, ?_, ?_, ?_⟩
    · intro e hb' n hl hn hself happ
      by_cases hthr : f.thr = some n
      · exact Or.inl ⟨f, List.mem_cons_self, hthr⟩
      · rcases self n hb' hl hn hself happ hthr with ⟨f', h1, h2⟩ | h1
        · exact Or.inl ⟨f', List.mem_cons_of_mem _ h1, h2⟩
        · exact Or.inr h1
    · intro e hb' n hl hn hself happ
      have hpx : f.isPx = true ∧ f.thr = none := by
        subst e; clear others self old
        cases f <;> fstep_cases h <;> exact ⟨rfl, rfl⟩
      have htd := hA.2 f (by rw [ht]; rfl) hpx.1
      rcases self n hb' hl hn hself happ (by rw [hpx.2]; simp) with ⟨f', h1, h2⟩ | h1
      · left
        refine thr_unwound hr (Or.inr ⟨f, ht⟩) h1 h2 ?_ htd
        obtain ⟨hb, hl0, _⟩ := old n hb' hl hn (fun e => by rw [e] at hpx; cases hpx.2)
        exact ((list_excl hr hn hb hl0).2.2 t f' (by rw [ht]; exact List.mem_cons_of_mem _ h1)).2
      · exact Or.inr h1
    · intro l e hb' n hl hn hself happ
      by_cases hthr : f.thr = some n
      · subst e
        by_cases hf2 : f = .bt2 n
        · subst hf2
          have hx : s.g.inExit = true → False := fun hx => by
            have hul := list_excl hr hn (not_born hr ht rfl) (n := n)
            fstep_cases h <;> first
              | (exact (hul hl).2.2 t _ hft |>.2 rfl)
              | (rename_i h0 _ _; exact h0 hx)
              | (rename_i h0 _; exact h0 hx)
          fstep_cases h
          · exact absurd ‹s.g.inExit = true› hx
          · exact Or.inl ⟨_, List.mem_cons_self, rfl⟩
        · obtain ⟨hb, hl0, hul⟩ := old n hb' hl hn hf2
          obtain ⟨hc, hav, hex⟩ := list_excl hr hn hb hl0
          obtain ⟨hmag, w, hw, hws, _⟩ := list_self hr hb hl0 hn
          have hk := (list_self_keep hr ht h hb hn hl0 hul).1
          rw [hk, hws] at hself
          injection hself with hself
          subst hself
          have hbef := before_inv hr hft n hthr
          have hun := (hex _ f hft).2
          clear old others self hex
          cases f <;> first | (cases hthr; done) | (exact absurd hthr hun) | skip
          all_goals fstep_cases h <;> first
            | exact Or.inl ⟨_, List.mem_cons_self, hthr⟩
            | skip
          · rename_i hsrc
            simp only [Frame.thr, hsrc, if_true, Option.some.injEq] at hthr
            exact Or.inl ⟨_, List.mem_cons_self, by rw [hthr]; rfl⟩
          · rename_i hsrc
            simp [Frame.thr, hsrc] at hthr
          · rename_i m hmf
            injection hthr with hthr
            subst hthr
            have hm : (s.g.nodes m).finiS = true ∨ s.g.finiThreadDone = true := by
              simp only [mayFini, hmag, happ, hB, Bool.and_true, Bool.true_and, Bool.not_false,
                Bool.and_eq_true, Bool.not_eq_true', not_and, Bool.not_eq_false] at hmf
              cases hfs : (s.g.nodes m).finiS with
              | true => exact Or.inl rfl
              | false => exact Or.inr (hmf hfs)
            rcases hm with hm | hm
            · refine Or.inr (Or.inr ⟨hm, ?_⟩)
              cases hx : s.g.inExit with
              | true => rfl
              | false => rw [hbef rfl hw hx] at hm; cases hm
            · exact Or.inr (Or.inl hm)
          · rename_i hx
            injection hthr with hthr
            subst hthr
            exact Or.inr (Or.inr ⟨by simp [G.upd], hx⟩)
          · rename_i hx _
            injection hthr with hthr
            subst hthr
            exact absurd (hul rfl) hx
      · rcases self n hb' hl hn hself happ hthr with ⟨f', h1, h2⟩ | h1
        · exact Or.inl ⟨f', List.mem_append_right _ h1, h2⟩
        · exact Or.inr h1
    · intro f0 e hb' n hl hn hself happ
      have hsp : g'.nodes = s.g.nodes ∧ g'.list = s.g.list ∧ g'.finiThreadDone = s.g.finiThreadDone ∧
          g'.inExit = s.g.inExit ∧ ∀ m, f ≠ .bt2 m := by
        subst e; clear others self old
        cases f <;> fstep_cases h <;> exact ⟨rfl, rfl, rfl, rfl, fun _ e => by cases e⟩
      obtain ⟨e1, e2, e3, e4, e5⟩ := hsp
      obtain ⟨hb, hl0, _⟩ := old n hb' hl hn (e5 n)
      rw [e1] at hself happ ⊢
      rw [e3, e4]
      rcases hS s.g.nextTid hb n hl0 hn hself happ with ⟨f', h1, _⟩ | h1
      · rw [fresh_inv hr _ (Nat.le_refl _)] at h1; cases h1
      · exact Or.inr h1
  · intro s t i f rest pre _ _ ht _ hS _ _ _ hb n hl hn hself happ
    have := hS t hb n hl hn hself happ
    rw [ht] at this
    rcases this with ⟨f', h1, h2⟩ | h1
    · exact Or.inl ⟨f', List.mem_append_right _ h1, h2⟩
    · exact Or.inr h1
  · intro s t hrT hA _ hne hS hb n hl hn hself happ
    have hr : ReachA Clean s := reach_mono (fun _ _ h => h.1) hrT
    rcases hS t hb n hl hn hself happ with ⟨f', h1, h2⟩ | h1
    · exact Or.inl (thr_unwound hr (Or.inl rfl) h1 h2 ((list_excl hr hn hb hl).2.2 t f' h1).2 hA.2)
    · exact Or.inr h1
  · intro s t c d rest _ _ _ _ _
    exact ⟨trivial, fun hb => (by cases hb), fun _ _ hb => (by cases hb)⟩
  · intro s t rest _ _ _ _ _
    exact ⟨trivial, fun hb => (by cases hb), fun _ _ hb => (by cases hb)⟩

/-- The record whose thread is about to be signalled was that of a thread in its start routine. -/
def KillF (g : G) (u : Tid) : Frame → Prop
  | .brKill _ n _ => ∀ x, callOf u 0 (own g.tr) = some x → n ≠ .main → (g.nodes n).appl = true
  | .sdKill _ n .. => n ≠ .main → (g.nodes n).appl = true
  | _ => True

theorem killF_of {g : G} {u : Tid} {f : Frame} (h1 : ∀ sig n l, f ≠ .brKill sig n l)
    (h2 : ∀ my n l a b, f ≠ .sdKill my n l a b) : KillF g u f := by
  cases f <;> first | trivial | exact absurd rfl (h1 _ _ _) | exact absurd rfl (h2 _ _ _ _ _)

theorem kill_inv {s : S} (hs : ReachA Clean s) {u : Tid} {f : Frame} (hf : f ∈ s.th u) :
    KillF s.g u f := by
  refine (frames_invA (A := Clean) (GI := fun _ => True) (FI := KillF) trivial trivial
    ?_ (fun _ h => h) (fun g u f h => ?_) ?_ ?_ ?_ ?_ hs).2 u f hf
  · intro s t f rest ok v g' nx sp hr hA ht _ hF h
    have hft : f ∈ s.th t := by rw [ht]; exact List.mem_cons_self
    have appl : ∀ n, n ≠ .main → born s.g.tr = false → n ∈ s.g.list →
        (f = .ul1 n → s.g.inExit = true) → (s.g.nodes n).appl = true →
        (g'.nodes n).appl = true := by
      intro n hn hb hl hul ha
      obtain ⟨_, w, _, hw, _⟩ := list_self hr hb hl hn
      rcases (list_core hr ht h hb hn hl hw hul).1 with e | e
      · rw [e]; exact ha
      · exact e
    refine ⟨trivial, ?_, ?_, ?_, ?_, ?_⟩
    · intro u h' hm hrest
      have hi := hF u h' hm
      cases h' <;> first | trivial | skip
      · rename_i n _ _ _
        obtain ⟨hx, hb, hl⟩ := (scan_inv hr hm).2 rfl
        intro hn
        exact appl n hn hb (hl n List.mem_cons_self hn) (fun _ => hx) (hi hn)
      · rename_i n _
        obtain ⟨lk, x1, x2⟩ := lock_excl hr hm rfl
        have hf0 : tokLock f = 0 := by
          by_cases e : u = t
          · subst e; exact x2 f rest ht (hrest rfl)
          · exact x1 t f hft (fun e2 => e e2.symm)
        obtain ⟨c1, c2⟩ := callOf_keep h (t := u) (fun _ => Or.inl hf0) (fun _ _ _ => lk) 0
        intro x hc hn
        rw [c1] at hc
        obtain ⟨j1, j2, j3⟩ := ((broad_inv hr).2 u _ hm).2 x.1 x.2 hc
        exact appl n hn (born_of_call hc) (j1.list n List.mem_cons_self hn).1
          (fun e => by subst e; cases hf0) (hi x hc hn)
    · intro e; subst e
      refine killF_of (fun sig n l e => ?_) (fun _ _ _ _ _ e => ?_) <;> subst e <;> fstep_cases h
    · intro l e h' hm
      subst e
      clear hF appl hA ht hft
      cases f <;> fstep_cases h <;>
        simp only [List.mem_cons, List.not_mem_nil, or_false] at hm <;>
        (try (rcases hm with hm | hm)) <;> (try subst hm) <;> first
        | trivial
        | (intro _; assumption)
        | (rename_i hc; exact fun _ _ _ => hc.2.1)
    · intro h' e
      subst e
      clear hF appl hA ht hft
      cases f <;> fstep_cases h <;> trivial
    · intro e h' hm
      rcases unwound_cases rest with e | ⟨_, n, _, _, e⟩ <;> rw [e] at hm <;> simp at hm
      · subst hm; trivial
      · rcases hm with hm | hm <;> subst hm <;> trivial
  · cases f <;> exact h
  · intro s t i h _ _ _ _ _ _ _ hp _
    exact killF_of (fun _ _ _ e => by subst e; cases hp) (fun _ _ _ _ _ e => by subst e; cases hp)
  · intro s t _ _ _ _ _ h' hm
    rcases unwound_cases (s.th t) with e | ⟨_, n, _, _, e⟩ <;> rw [e] at hm <;> simp at hm
    · subst hm; trivial
    · rcases hm with hm | hm <;> subst hm <;> trivial
  · intro s t c d rest hr hA ht _ hF
    refine ⟨trivial, fun h hm => ?_⟩
    rcases List.mem_cons.1 hm with e | hm
    · subst e; trivial
    rcases List.mem_cons.1 hm with e | hm
    · subst e; trivial
    have hm : h ∈ s.th t := by rw [ht]; exact List.mem_cons_of_mem _ hm
    have hok := hA h hm
    cases h <;> first | trivial | (cases hok; done) | (intro x hc; cases hc)
  · intro s t rest hr hA ht _ hF
    refine ⟨trivial, fun h hm => ?_⟩
    rcases List.mem_cons.1 hm with e | hm
    · subst e; trivial
    have hm : h ∈ s.th t := by rw [ht]; exact List.mem_cons_of_mem _ hm
    have hok := hA h hm
    cases h <;> first | trivial | (cases hok; done) | (intro x hc; cases hc)

/-- The exit cleanup, up to the end of its walk over the threads. -/
def tokWalk : Frame → Nat
  | .ep2 .. | .epBegin _ | .sd0 | .sd1 | .sd2 | .sd3 | .sdScan .. | .sdKill .. | .sdScan2 ..
  | .sdDone _ => 1
  | _ => 0

theorem resetList_flags (g : G) (t : Tid) : (resetList g t).finiThreadDone = g.finiThreadDone ∧
    (resetList g t).cookie = g.cookie := by
  unfold resetList; split <;> exact ⟨rfl, rfl⟩

theorem oneTok_walk {A : S → Lbl → Prop} {s : S} (hs : ReachA A s) :
    OneTok tokWalk (fun g => g.cookie) (fun g => if g.finiThreadDone then 1 else 0) s := by
  refine oneTok_inv rfl (by simp) rfl ?_ (fun _ => rfl) (fun _ _ => ?_)
    (Nat.le_refl _) (fun _ => ⟨rfl, rfl⟩) (fun _ _ _ => ⟨rfl, ?_⟩) ?_ hs
  · intro f hf
    cases f <;> first | rfl | (simp [Frame.pushable] at hf; done)
  · simp [tokWalk]
  · exact Nat.le_refl _
  · intro g t ok v f g' nx sp h0 h
    cases f <;> fstep_cases h <;>
      simp [listInit, G.emit, G.upd, Next.toks, toks, tokWalk, resetList_flags]
    all_goals first
      | (simp_all; done)
      | (split <;> simp_all; done)
      | (left; split <;> omega)
      | skip

theorem walk_open {A : S → Lbl → Prop} {s : S} (hs : ReachA A s) {t : Tid} {f : Frame}
    {rest : List Frame} (ht : s.th t = f :: rest) (hf : tokWalk f = 1) :
    s.g.finiThreadDone = false := by
  have := (oneTok_holder (oneTok_walk hs) ht hf).1
  cases h : s.g.finiThreadDone with
  | false => rfl
  | true => rw [h] at this; cases this

/-- Where signals are sent from. -/
theorem kill_step {s s' : S} {t : Tid} {i : Inp} {tgt : Option Tid} {sig : Option Nat}
    (hn : next s (.step t i) = some s') (hk : s'.g.tr = (t, .kill tgt sig) :: s.g.tr) :
    (∃ k rest, s.th t = .br1 k [] :: rest ∧ (s.g.nodes .main).self = tgt ∧ sig = some k) ∨
    (∃ k n todo rest, s.th t = .brKill k n todo :: rest ∧ (s.g.nodes n).self = tgt ∧ sig = some k) ∨
    (∃ my n todo a b rest, s.th t = .sdKill my n todo a b :: rest ∧ (s.g.nodes n).self = tgt ∧
      sig = none) := by
  have hne : ∀ (x : Tid × Ev) (l : Hist), l ≠ x :: l := fun x l h => by
    have := congrArg List.length h
    simp at this
  have key : ∀ f ok v g' nx sp, fstep s.g t ok v f = some (g', nx, sp) →
      g'.tr = (t, .kill tgt sig) :: s.g.tr →
      (∃ k, f = .br1 k [] ∧ (s.g.nodes .main).self = tgt ∧ sig = some k) ∨
      (∃ k n todo, f = .brKill k n todo ∧ (s.g.nodes n).self = tgt ∧ sig = some k) ∨
      (∃ my n todo a b, f = .sdKill my n todo a b ∧ (s.g.nodes n).self = tgt ∧ sig = none) := by
    intro f ok v g' nx sp h e
    clear hk hn
    cases f <;> fstep_cases h <;> first
      | exact absurd e (hne _ _)
      | (simp [G.emit, G.upd, listInit, resetList_tr] at e; done)
      | (injection e with e _; injection e with _ e; injection e with e1 e2
         exact Or.inl ⟨_, rfl, e1, e2.symm⟩)
      | (injection e with e _; injection e with _ e; injection e with e1 e2
         exact Or.inr (Or.inl ⟨_, _, _, rfl, e1, e2.symm⟩))
      | (injection e with e _; injection e with _ e; injection e with e1 e2
         exact Or.inr (Or.inr ⟨_, _, _, _, _, rfl, e1, e2.symm⟩))
  cases hm : move_of_next hn with
  | @go _ f rest ok v r hd ht hf =>
    obtain ⟨g', nx, sp⟩ := r
    have hg : g'.tr = (t, .kill tgt sig) :: s.g.tr := by
      rw [← hk, applyRes_g]; split <;> rfl
    rcases key f ok v g' nx sp hf hg with ⟨k, e, h⟩ | ⟨k, n, todo, e, h⟩ | ⟨my, n, todo, a, b, e, h⟩
    · exact Or.inl ⟨k, rest, by rw [ht, e], h⟩
    · exact Or.inr (Or.inl ⟨k, n, todo, rest, by rw [ht, e], h⟩)
    · exact Or.inr (Or.inr ⟨my, n, todo, a, b, rest, by rw [ht, e], h⟩)
  | call => exact absurd hk (hne _ _)
  | unwind => exact absurd hk (hne _ _)
  | deliver => exact absurd hk (hne _ _)
  | interrupt => exact absurd hk (hne _ _)

/-- The exit cleanup after its look at the flag. -/
def Frame.looked : Frame → Bool
  | .sd1 | .sd2 | .sd3 | .sdScan .. | .sdKill .. | .sdScan2 .. | .sdDone _ => true
  | _ => false

theorem looked_tok {f : Frame} (h : f.looked = true) : tokWalk f = 1 := by
  cases f <;> first | rfl | cases h

/-- An exit begun in this process cleans up only if the thread list is in use. -/
theorem looked_inv {s : S} (hs : ReachA Clean s) {u : Tid} {f : Frame} (hf : f ∈ s.th u)
    (hl : f.looked = true) {how : How} (hb : (u, .beginExit how) ∈ own s.g.tr) :
    s.g.hasUsed = true := by
  refine (frames_invA (A := Clean) (GI := fun _ => True) (FI := fun g u f => f.looked = true →
    ∀ how, (u, Ev.beginExit how) ∈ own g.tr → g.hasUsed = true) trivial (fun h => by cases h)
    ?_ (fun _ h => h) (fun _ _ _ h => h) ?_ ?_ ?_ ?_ hs).2 u f hf hl how hb
  · intro s t f rest ok v g' nx sp hr hA ht _ hF h
    have hft : f ∈ s.th t := by rw [ht]; exact List.mem_cons_self
    have hnew : ∀ u how, (u, Ev.beginExit how) ∈ own g'.tr →
        (u, Ev.beginExit how) ∈ own s.g.tr ∨ (u = t ∧ ∃ a b, f = .ep2 a b) := by
      intro u how hm
      clear hF ht hft hA
      cases f <;> fstep_cases h <;> first
        | exact Or.inl hm
        | (simp [listInit, G.emit, G.upd, own, Ev.isForked, resetList_tr] at hm; exact Or.inl hm)
        | (simp [listInit, G.emit, G.upd, own, Ev.isForked, resetList_tr] at hm
           rcases hm with hm | hm
           · exact Or.inr ⟨hm.1, _, _, rfl⟩
           · exact Or.inl hm)
    have hkeep : ∀ u how, (u, Ev.beginExit how) ∈ own s.g.tr → s.g.hasUsed = true →
        g'.hasUsed = true := by
      intro u how hm hu
      refine hasUsed_keep ?_ h hu
      cases hres : f.resetting with
      | false => rfl
      | true =>
        rw [own_born (((base_inv hr).2 t f hft).2.1 hres)] at hm
        cases hm
    have hold : ∀ u h', h' ∈ s.th u → (u = t → h' ∈ rest) → h'.looked = true →
        ∀ how, (u, Ev.beginExit how) ∈ own g'.tr → g'.hasUsed = true := by
      intro u h' hm hor hl how hb
      rcases hnew u how hb with hb | ⟨e, a, b, e2⟩
      · exact hkeep u how hb (hF u h' hm hl how hb)
      · subst e2
        have h2 := (oneTok_holder (oneTok_walk hr) ht rfl).2.1
        have := toks_mem (tok := tokWalk) (hor e)
        rw [looked_tok hl] at this
        omega
    refine ⟨trivial, hold, ?_, ?_, ?_, ?_⟩
    · intro e hl
      subst e
      cases f <;> first | (cases hl; done) | (fstep_cases h; done)
    · intro l e h' hm hl how hb
      subst e
      rcases hnew t how hb with hb | ⟨_, a, b, e2⟩
      · by_cases hl0 : f.looked = true
        · exact hkeep t how hb (hF t f hft hl0 how hb)
        · have hsd : f = .sd0 ∧ s.g.hasUsed = true := by
            clear hF hold hnew hkeep ht hft hA
            cases f <;> fstep_cases h <;>
              simp only [List.mem_cons, List.not_mem_nil, or_false] at hm <;>
              (try (rcases hm with hm | hm)) <;> (try subst hm) <;> first
              | (cases hl; done)
              | (exact absurd rfl hl0)
              | exact ⟨rfl, by assumption⟩
              | skip
          exact hkeep t how hb hsd.2
      · subst e2
        fstep_cases h <;>
          simp only [List.mem_cons, List.not_mem_nil, or_false] at hm <;> subst hm <;> cases hl
    · intro h' e hl
      subst e
      clear hF hold hnew hkeep ht hft hA
      cases f <;> fstep_cases h <;> cases hl
    · intro e h' hm hl
      rcases unwound_cases rest with e | ⟨_, n, _, _, e⟩ <;> rw [e] at hm <;> simp at hm
      · subst hm; cases hl
      · rcases hm with hm | hm <;> subst hm <;> cases hl
  · intro s t i h _ _ _ _ _ _ _ hp _ hl
    cases h <;> first | (cases hl; done) | (cases hp; done)
  · intro s t _ _ _ _ _ h' hm hl
    rcases unwound_cases (s.th t) with e | ⟨_, n, _, _, e⟩ <;> rw [e] at hm <;> simp at hm
    · subst hm; cases hl
    · rcases hm with hm | hm <;> subst hm <;> cases hl
  · intro s t c d rest _ _ _ _ _
    exact ⟨trivial, fun _ _ _ _ hb => (by cases hb)⟩
  · intro s t rest _ _ _ _ _
    exact ⟨trivial, fun _ _ _ _ hb => (by cases hb)⟩

end Libmonitor.Proc
