import Verif.Proc.SpecExits
import Verif.Proc.PropsFair
import Verif.Proc.Repeat
import Verif.Proc.PropsUb
/-!
# Exit ends the process: lemmas
-/

namespace Libmonitor.Proc

theorem orderly_of {s : S} (hs : ReachA CleanOrderly s) : ReachA Orderly s :=
  reach_mono (fun _ _ h => h.2) hs

theorem clean_of {s : S} (hs : ReachA CleanOrderly s) : ReachA Clean s :=
  reach_mono (fun _ _ h => h.1) hs

/-- The history of the process, and of its ancestors. -/
theorem own_split (tr : Hist) : ∃ r, tr = own tr ++ r ∧
    ∀ {t b a c}, tr = a ++ (t, Ev.forked b) :: c → ∃ p, r = p ++ (t, Ev.forked b) :: c := by
  induction tr with
  | nil => exact ⟨[], rfl, fun h => by simp at h⟩
  | cons x tr ih =>
    obtain ⟨t, e⟩ := x
    cases he : e.isForked with
    | true =>
      refine ⟨(t, e) :: tr, by simp [own, he], fun {t' b a c} h => ⟨a, h⟩⟩
    | false =>
      obtain ⟨r, h1, h2⟩ := ih
      refine ⟨r, by rw [own_cons _ he, List.cons_append, ← h1], fun {t' b a c} h => ?_⟩
      cases a with
      | nil =>
        rw [List.nil_append] at h
        injection h with h _
        cases h; cases he
      | cons y a =>
        rw [List.cons_append] at h
        injection h with _ h
        exact h2 h

theorem begin_le {A : S → Lbl → Prop} {s : S} (hs : ReachA A s) :
    occurs Ev.isBeginExit s.g.tr ≤ 1 := by
  obtain ⟨h0, h2⟩ := oneTok_begin hs
  cases hc : s.g.cookie with
  | false => have := (h0 hc).1; simp only at this; omega
  | true => obtain ⟨w, _, h⟩ := h2 hc; simp only at h; omega

theorem occurs_app (p : Ev → Bool) (a b : Hist) : occurs p (a ++ b) = occurs p a + occurs p b :=
  List.countP_append ..

/-- Begin-process-exit was called by one thread, once. -/
theorem begin_unique {A : S → Lbl → Prop} {s : S} (hs : ReachA A s) {t u : Tid} {h1 h2 : How}
    (ht : (t, .beginExit h1) ∈ s.g.tr) (hu : (u, .beginExit h2) ∈ s.g.tr) : t = u := by
  have hle := begin_le hs
  obtain ⟨a, b, e⟩ := List.append_of_mem ht
  rw [e, occurs_app, occurs_cons] at hle
  simp only [Ev.isBeginExit, if_true] at hle
  rw [e] at hu
  rcases List.mem_append.1 hu with hu | hu
  · have := occurs_pos (p := Ev.isBeginExit) hu rfl; omega
  · rcases List.mem_cons.1 hu with hu | hu
    · injection hu with h _; exact h.symm
    · have := occurs_pos (p := Ev.isBeginExit) hu rfl; omega

/-- ... and not before the fork that made the process if in the process. -/
theorem begin_own {A : S → Lbl → Prop} {s : S} (hs : ReachA A s) {t u : Tid} {h1 h2 : How} {r : Hist}
    (ho : (t, .beginExit h1) ∈ own s.g.tr) (e : s.g.tr = own s.g.tr ++ r)
    (hu : (u, .beginExit h2) ∈ r) : False := by
  have hle := begin_le hs
  rw [e, occurs_app] at hle
  have := occurs_pos (p := Ev.isBeginExit) ho rfl
  have := occurs_pos (p := Ev.isBeginExit) hu rfl
  omega

/-- Exit processing has begun in the process, and fini-process has not returned. -/
def midway (g : G) : Prop :=
  (∃ t how, (t, Ev.beginExit how) ∈ own g.tr) ∧ ∀ t how, (t, Ev.finiProcessRet how) ∉ own g.tr

def Frame.mid : Frame → Bool
  | .epBegin _ | .epFini0 _ | .epFini _ => true
  | _ => false

theorem midway_back {g g' : G} {t : Tid} {ok : Bool} {v : Nat} {f : Frame} {nx : Next}
    {sp : Option Frame} (h : fstep g t ok v f = some (g', nx, sp)) (hq : midway g')
    (hf : ∀ how tn, f ≠ .ep2 how tn) : midway g := by
  refine ⟨?_, fun u how hm => hq.2 u how (own_mem_fstep h _ hm)⟩
  obtain ⟨u, how, hm⟩ := hq.1
  refine ⟨u, how, ?_⟩
  clear hq
  cases f <;> first | exact absurd rfl (hf _ _) | skip
  all_goals fstep_cases h
  all_goals first
    | exact hm
    | (simpa [G.emit, G.upd, listInit, own, Ev.isForked] using hm; done)

theorem fini_not {g g' : G} {t : Tid} {ok : Bool} {v : Nat} {how : How} {nx : Next}
    {sp : Option Frame} (h : fstep g t ok v (.epFini how) = some (g', nx, sp)) : ¬ midway g' := by
  fstep_cases h
  intro hq
  exact hq.2 t how (by simp [G.emit, own, Ev.isForked])

/-- Midway, some thread is at it. -/
theorem mid_inv {s : S} (hs : ReachA Orderly s) (h : midway s.g) :
    ∃ w f, f ∈ s.th w ∧ f.mid = true := by
  refine duty_inv (P := midway) (p := Frame.mid) ?_ ?_ (fun _ h => h) ?_ ?_ hs h
  · rintro ⟨⟨t, how, h⟩, _⟩; cases h
  · intro f hf
    cases f <;> first | rfl | (simp [Frame.mid] at hf; done)
  · rintro g t b ⟨⟨u, how, h⟩, _⟩
    simp [G.emit, own, Ev.isForked] at h
  · intro s t f rest ok v g' nx sp _ _ hf hq
    by_cases he : ∃ how tn, f = .ep2 how tn
    · obtain ⟨how, tn, e⟩ := he
      subst e
      right
      fstep_cases hf <;> exact ⟨_, rfl, rfl⟩
    · have hb := midway_back hf hq (fun how tn e => he ⟨how, tn, e⟩)
      cases hm : f.mid with
      | false => exact Or.inl ⟨hb, fun e => by cases e⟩
      | true =>
        right
        cases f <;> first | (simp [Frame.mid] at hm; done) | skip
        · fstep_cases hf; exact ⟨_, rfl, rfl⟩
        · fstep_cases hf; exact ⟨_, rfl, rfl⟩
        · exact absurd hq (fini_not hf)

theorem always_sub {P : Hist → Tid → Ev → Prop} {tr : Hist} (h : Always P tr) {t : Tid} {e : Ev}
    (hx : (t, e) ∈ tr) : ∃ old, P old t e ∧ ∀ y ∈ old, y ∈ tr := by
  obtain ⟨a, b, h1, h2⟩ := always_mem h hx
  exact ⟨b, h2, fun y hy => by rw [h1]; exact List.mem_append_right _ (List.mem_cons_of_mem _ hy)⟩

theorem always_app {P : Hist → Tid → Ev → Prop} {a b : Hist} (h : Always P (a ++ b)) : Always P b := by
  induction a with
  | nil => exact h
  | cons x a ih => exact ih h.2

theorem order_fini {tr : Hist} (h : Always exitOrder tr) {t : Tid} {how : How} {d : Data}
    (hm : (t, .finiProcess how d) ∈ tr) : (t, .beginExit how) ∈ tr := by
  obtain ⟨old, k1, k2⟩ := always_sub h hm
  obtain ⟨old', k3, k4⟩ := always_sub h (k2 _ k1)
  exact k4 _ k3

theorem order_ret {tr : Hist} (h : Always exitOrder tr) {t : Tid} {how : How}
    (hm : (t, .finiProcessRet how) ∈ tr) : (t, .beginExit how) ∈ tr := by
  obtain ⟨old, ⟨d, k1⟩, k2⟩ := always_sub h hm
  exact order_fini h (k2 _ k1)

/-- ... namely the one that began. -/
theorem mid_began {A : S → Lbl → Prop} {s : S} (hs : ReachA A s) {w : Tid} {f : Frame}
    (hf : f ∈ s.th w) (hm : f.mid = true) : ∃ how, (w, Ev.beginExit how) ∈ s.g.tr := by
  obtain ⟨h1, h2⟩ := exitOrder_inv hs
  have hx := h2 w f hf
  cases f <;> first | (simp [Frame.mid] at hm; done) | skip
  · exact ⟨_, hx⟩
  · obtain ⟨old, k1, k2⟩ := always_sub h1 hx
    exact ⟨_, k2 _ k1⟩
  · obtain ⟨d, hx⟩ := hx
    exact ⟨_, order_fini h1 hx⟩

theorem delivers_began {u : Tid} {tr : Hist} (h : delivers u tr) :
    ∃ w how, (w, Ev.beginExit how) ∈ tr := by
  rcases h with ⟨how, h⟩ | ⟨a, b, c, h1, _, w, how, h⟩
  · exact ⟨u, how, h⟩
  · exact ⟨w, how, by rw [h1]; exact List.mem_append_right _ (List.mem_cons_of_mem _ h)⟩

/-- Midway, the one who delivers the callbacks is the one that began. -/
theorem mid_delivers {s : S} (hs : ReachA Orderly s) (hq : midway s.g) {t : Tid}
    (hd : delivers t s.g.tr) : ∃ f ∈ s.th t, f.mid = true := by
  obtain ⟨w, f, hf, hm⟩ := mid_inv hs hq
  obtain ⟨how, hw⟩ := mid_began hs hf hm
  rcases hd with ⟨how', hd⟩ | ⟨a, b, c, h1, _, x, how', hx⟩
  · have := begin_unique hs hw hd
    subst this
    exact ⟨f, hf, hm⟩
  · exfalso
    obtain ⟨y, how2, hy⟩ := hq.1
    obtain ⟨r, e1, e2⟩ := own_split s.g.tr
    obtain ⟨p, e3⟩ := e2 h1
    exact begin_own hs hy e1 (by
      rw [e3]; exact List.mem_append_right _ (List.mem_cons_of_mem _ hx))

/-- Midway, nobody comes through as the one who delivers the callbacks. -/
theorem again_inv {s : S} (hs : ReachA CleanOrderly s) :
    (midway s.g → ∀ t how, (t, Ev.resume how .again) ∉ own s.g.tr) ∧
    ∀ u f, f ∈ s.th u → midway s.g → ∀ how, f ≠ .epDone how .again := by
  have unw : ∀ {l : List Frame} {h : Frame}, h ∈ unwound l → ∀ how, h ≠ .epDone how .again := by
    intro l h hm how e
    subst e
    rcases unwound_cases l with e | ⟨_, m, _, _, e⟩ <;> rw [e] at hm <;> simp at hm
  have frk : ∀ {g : G} {t : Tid} {b : Bool}, ¬ midway (g.emit t (.forked b)) := by
    rintro g t b ⟨⟨u, how, h⟩, _⟩
    simp [G.emit, own, Ev.isForked] at h
  refine frames_invA (A := CleanOrderly)
    (GI := fun g => midway g → ∀ t how, (t, Ev.resume how .again) ∉ own g.tr)
    (FI := fun g _ f => midway g → ∀ how, f ≠ .epDone how .again)
    (fun _ t how h => by cases h) (fun _ how e => by cases e) ?_ (fun _ h => h) (fun _ _ _ h => h)
    ?_ ?_ ?_ ?_ hs
  · intro s t f rest ok v g' nx sp hr hA ht hG hF h
    have hft : f ∈ s.th t := by rw [ht]; exact List.mem_cons_self
    have hc := clean_of hr
    have ho := orderly_of hr
    by_cases he : ∃ how tn, f = .ep2 how tn
    · obtain ⟨how, tn, e⟩ := he
      subst e
      -- nobody has begun before
      have hno : ∀ w how, (w, Ev.beginExit how) ∉ s.g.tr := by
        intro w how' hw
        have hpos := occurs_pos (p := Ev.isBeginExit) hw rfl
        obtain ⟨h0, h2⟩ := oneTok_begin hr
        have htk := toks_mem (tok := tokBegin) hft
        have : tokBegin (.ep2 how tn) = 1 := rfl
        cases hck : s.g.cookie with
        | false => have := (h0 hck).1; simp only at this; omega
        | true =>
          obtain ⟨w', k1, k2⟩ := h2 hck
          simp only at k2
          by_cases e : t = w'
          · subst e; omega
          · have := k1 t e; omega
      have hnd : ∀ u, ¬ delivers u s.g.tr := by
        intro u hd
        obtain ⟨w, how', hw⟩ := delivers_began hd
        exact hno w how' hw
      refine ⟨fun _ u how' hm => ?_, fun u h' hm _ _ how' e => ?_, fun e => ?_, fun l e h' hl _ how' e' => ?_,
        fun h' e => ?_, fun e => ?_⟩
      · have hm : (u, Ev.resume how' .again) ∈ own s.g.tr := by
          fstep_cases h <;> simpa [G.emit, G.upd, own, Ev.isForked] using hm
        obtain ⟨old, k1, k2⟩ := always_sub (repeat_inv hc) ((own_sublist _).subset hm)
        rcases k1 how' rfl with ⟨how2, k⟩ | ⟨a, b, c, e1, _, w, how2, k⟩
        · exact hno u how2 (k2 _ k)
        · exact hno w how2 (k2 _ (by
            rw [e1]; exact List.mem_append_right _ (List.mem_cons_of_mem _ k)))
      · exact hnd u (((winS_inv hc).2 u h' hm).2 how' e)
      · subst e; fstep_cases h
      · subst e; subst e'; fstep_cases h <;> simp at hl
      · subst e; fstep_cases h
      · subst e; fstep_cases h
    · have hb : midway g' → midway s.g := fun hq =>
        midway_back h hq (fun how tn e => he ⟨how, tn, e⟩)
      refine ⟨fun hq u how' hm => ?_, fun u h' hm _ hq how' e => ?_, fun e hq how' e' => ?_,
        fun l e h' hl hq how' e' => ?_, fun h' e hq how' e' => ?_, fun e h' hm _ => unw hm⟩
      · have hq0 := hb hq
        by_cases hd : ∃ how, f = .epDone how .again
        · obtain ⟨how2, e⟩ := hd
          exact hF t f hft hq0 how2 e
        · apply hG hq0 u how'
          clear hF hG hb ht hA
          cases f
          case epDone how2 w =>
            fstep_cases h
            simp only [G.emit, own, Ev.isForked, Bool.false_eq_true, if_false, List.mem_cons] at hm
            rcases hm with hm | hm
            · cases hm; exact absurd ⟨_, rfl⟩ hd
            · exact hm
          all_goals fstep_cases h
          all_goals first
            | exact hm
            | (simpa [G.emit, G.upd, listInit, own, Ev.isForked] using hm; done)
      · exact hF u h' hm (hb hq) how' e
      · exact hF t f hft (hb hq) how' e'
      · have hq0 := hb hq
        subst e; subst e'
        have key : ∀ n how, f = .ep1 how (some n) → (s.g.nodes n).exitWin = true → False := by
          intro n how e hw
          subst e
          have hd := ((winS_inv hc).2 t _ hft).1 n (held_inv hc hft rfl) (fun e => by cases e)
            (not_born hc ht rfl) hw
          obtain ⟨x, hx, hm⟩ := mid_delivers ho hq0 hd
          have htidy := tidy_inv ho t
          rw [ht] at hx htidy
          rcases List.mem_cons.1 hx with e | hx
          · subst e; cases hm
          · have := clash_duty (a := .ep1 how (some n)) rfl ((List.pairwise_cons.1 htidy).1 x hx)
            cases x <;> first | (simp [Frame.mid] at hm; done) | cases this
        clear hF hG hb ht hA hft hq hq0
        cases f <;> fstep_cases h <;>
          simp only [List.mem_cons, List.not_mem_nil, or_false, reduceCtorEq] at hl
        all_goals first
          | (cases hl; done)
          | exact key _ _ rfl (by assumption)
      · subst e; subst e'
        clear hF hG hb ht hA hft hq
        cases f <;> fstep_cases h
  · intro s t i h _ _ _ _ _ _ _ hp _ _ how e
    subst e; simp [Frame.pushable] at hp
  · intro s t _ _ _ _ _ h hm _
    exact unw hm
  · intro s t c d rest _ _ _ _ _
    exact ⟨fun h => absurd h frk, fun _ _ h => absurd h frk⟩
  · intro s t rest _ _ _ _ _
    exact ⟨fun h => absurd h frk, fun _ _ h => absurd h frk⟩

/-- Who is released finds that fini-process has returned. -/
theorem delivered_of_released {s : S} (hs : ReachA CleanOrderly s) (hr : released s.g.tr)
    (hn : notInherited s.g.tr) : finiDelivered s.g.tr := by
  obtain ⟨r, e1, _⟩ := own_split s.g.tr
  have hno : ∀ w how, (w, Ev.beginExit how) ∉ r := by
    intro w how hw
    exact begin_own hs (hn w how (by rw [e1]; exact List.mem_append_right _ hw)) e1 hw
  rcases hr with ⟨t, how, hm⟩ | ⟨t, how, hm⟩
  · rw [e1] at hm
    rcases List.mem_append.1 hm with hm | hm
    · exact ⟨t, how, hm⟩
    · have h1 := (exitOrder_inv hs).1
      rw [e1] at h1
      exact absurd (order_ret (always_app h1) hm) (hno t how)
  · have h1 := repeat_inv (clean_of hs)
    obtain ⟨old, k1, k2⟩ := always_sub h1 hm
    obtain ⟨w, how1, hw⟩ := delivers_began (k1 how rfl)
    have hw := hn w how1 (k2 _ hw)
    apply Classical.byContradiction
    intro hnd
    have hq : midway s.g := ⟨⟨w, how1, hw⟩, fun t how h => hnd ⟨t, how, h⟩⟩
    rw [e1] at hm
    rcases List.mem_append.1 hm with hm | hm
    · exact (again_inv hs).1 hq t how hm
    · rw [e1] at h1
      obtain ⟨old, k1, k2⟩ := always_sub (always_app h1) hm
      obtain ⟨w, how1, hw⟩ := delivers_began (k1 how rfl)
      exact hno w how1 (k2 _ hw)

/-! ## The end of the process -/

theorem realExit_inv {A : S → Lbl → Prop} {s : S} (hs : ReachA A s) {u : Tid} {f : Frame}
    (hf : f ∈ s.th u) (he : f = .realExit ∨ f = .realExit2) :
    ∃ b, (u, Ev.realExit b) ∈ s.g.tr := by
  refine (frames_invA (A := A) (GI := fun _ => True)
    (FI := fun g u f => f = .realExit ∨ f = .realExit2 → ∃ b, (u, Ev.realExit b) ∈ g.tr)
    trivial ?_ ?_ (fun _ h => h) (fun _ _ _ h => h) ?_ ?_ ?_ ?_ hs).2 u f hf he
  · rintro (e | e) <;> cases e
  · intro s t f rest ok v g' nx sp _ _ ht _ hF h
    have hft : f ∈ s.th t := by rw [ht]; exact List.mem_cons_self
    have hm := mem_of_fstep h
    have keep : ∀ u h', h' ∈ s.th u → h' = .realExit ∨ h' = .realExit2 →
        ∃ b, (u, Ev.realExit b) ∈ g'.tr := by
      intro u h' hh he
      obtain ⟨b, k⟩ := hF u h' hh he
      exact ⟨b, hm _ k⟩
    refine ⟨trivial, fun u h' hh _ => keep u h' hh, fun _ => keep t f hft,
      fun l e h' hl he => ?_, fun h' e he => ?_, fun _ h' hl he => ?_⟩
    · subst e
      have h0 := keep t f hft
      clear keep hm hF ht hft
      rcases he with e | e <;> subst e <;> cases f <;> fstep_cases h <;>
        simp only [List.mem_cons, List.not_mem_nil, or_false, or_self, reduceCtorEq] at hl <;> first
        | exact ⟨_, List.mem_cons_self⟩
        | exact h0 (Or.inl rfl)
        | (split at hl <;> simp at hl; done)
    · subst e
      clear keep hm hF ht hft
      cases f <;> fstep_cases h <;> rcases he with e | e <;> cases e
    · exfalso
      rcases unwound_cases rest with e | ⟨_, m, _, _, e⟩ <;> rw [e] at hl <;>
        rcases he with he | he <;> subst he <;> simp at hl
  · intro s t i h _ _ _ _ _ _ _ hp _ he
    rcases he with e | e <;> subst e <;> simp [Frame.pushable] at hp
  · intro s t _ _ _ _ _ h hm he
    exfalso
    rcases unwound_cases (s.th t) with e | ⟨_, m, _, _, e⟩ <;> rw [e] at hm <;>
      rcases he with he | he <;> subst he <;> simp at hm
  · intro s t c d rest _ _ ht _ hF
    refine ⟨trivial, fun h hm he => ?_⟩
    simp only [List.mem_cons] at hm
    rcases hm with hm | hm | hm
    · subst hm; rcases he with e | e <;> cases e
    · subst hm; rcases he with e | e <;> cases e
    · obtain ⟨b, k⟩ := hF t h (by rw [ht]; exact List.mem_cons_of_mem _ hm) he
      exact ⟨b, List.mem_cons_of_mem _ k⟩
  · intro s t rest _ _ ht _ hF
    refine ⟨trivial, fun h hm he => ?_⟩
    simp only [List.mem_cons] at hm
    rcases hm with hm | hm
    · subst hm; rcases he with e | e <;> cases e
    · obtain ⟨b, k⟩ := hF t h (by rw [ht]; exact List.mem_cons_of_mem _ hm) he
      exact ⟨b, List.mem_cons_of_mem _ k⟩

theorem die_cases {g g' : G} {t : Tid} {ok : Bool} {v : Nat} {f : Frame} {sp : Option Frame}
    (h : fstep g t ok v f = some (g', .die, sp)) :
    (f = .realExit ∨ f = .realExit2) ∨ (∀ old, f.abrupt old t) ∨ g'.ub = true ∨
      ∃ e, g'.tr = (t, e) :: g.tr ∧ e.isHookedExit = true := by
  cases f
  case xUExit2 b =>
    cases b <;> fstep_cases h
    · exact Or.inr (Or.inl fun _ => trivial)
    · exact Or.inr (Or.inr (Or.inr ⟨_, rfl, rfl⟩))
  case xExec2 b =>
    cases b <;> fstep_cases h
    · exact Or.inr (Or.inl fun _ => trivial)
    · exact Or.inr (Or.inr (Or.inr ⟨_, rfl, rfl⟩))
  all_goals fstep_cases h
  all_goals first
    | exact Or.inl (Or.inl rfl)
    | exact Or.inl (Or.inr rfl)
    | exact Or.inr (Or.inl fun _ => trivial)
    | exact Or.inr (Or.inr (Or.inl rfl))
    | exact Or.inr (Or.inr (Or.inr ⟨_, rfl, rfl⟩))

/-- What has happened when the process ends. -/
theorem end_step {s s1 : S} (hs : ReachA CleanOrderly s) {w : Tid} {ok : Bool} {v : Nat}
    (hA : CleanOrderly s (.step w (.go ok v)))
    (hn : next s (.step w (.go ok v)) = some s1) (hd : s.g.dead = false) (hd1 : s1.g.dead = true) :
    released s1.g.tr ∨ ∃ f ∈ (s.th w).head?, f.abrupt s.g.tr w := by
  have hs1 : ReachA CleanOrderly s1 := .next hs hA hn
  have hcov := (cov_inv hs1).1
  have hm := move_of_next hn
  cases hm with
  | @go _ f rest _ _ r _ ht hf =>
    obtain ⟨g', nx, sp⟩ := r
    have hfw : f ∈ s.th w := by rw [ht]; exact List.mem_cons_self
    have hdd : nx = .die := by
      apply Classical.byContradiction
      intro hne
      rw [applyRes_g, if_neg hne] at hd1
      have : g'.dead = s.g.dead := by
        clear hcov hs1 hn hA
        cases f <;> fstep_cases hf <;> first
          | rfl
          | (simp [G.emit, G.upd]; done)
      have hd1 : g'.dead = true := hd1
      rw [this, hd] at hd1; cases hd1
    subst hdd
    have htr : (applyRes s w rest (g', .die, sp)).g.tr = g'.tr := by
      rw [applyRes_g, if_pos rfl]
    have hub : (applyRes s w rest (g', .die, sp)).g.ub = g'.ub := by
      rw [applyRes_g, if_pos rfl]
    rcases die_cases hf with h | h | h | ⟨e, h1, h2⟩
    · obtain ⟨b, hb⟩ := realExit_inv hs hfw h
      cases b with
      | false =>
        refine Or.inr ⟨f, by rw [ht]; rfl, ?_⟩
        rcases h with h | h <;> subst h <;> exact hb
      | true =>
        left
        rw [htr] at hcov ⊢
        obtain ⟨old, k1, k2⟩ := always_sub hcov (mem_of_fstep hf _ hb)
        exact released_mono k2 (k1 rfl)
    · exact Or.inr ⟨f, by rw [ht]; rfl, h _⟩
    · exfalso
      have := C63_operations_partial (clean_of hs1)
      rw [hub, h] at this; cases this
    · left
      rw [htr, h1] at hcov ⊢
      exact released_mono (fun _ h => List.mem_cons_of_mem _ h) (hcov.1 h2)

/-- A step of a thread that goes on adds to the history of the process. -/
theorem go_tr {s s1 : S} {u : Tid} {ok : Bool} {v : Nat}
    (hn : next s (.step u (.go ok v)) = some s1) :
    ∃ es, s1.g.tr = es ++ s.g.tr ∧ own s1.g.tr = es ++ own s.g.tr := by
  have hm := move_of_next hn
  cases hm with
  | @go _ f rest _ _ r _ ht hf =>
    obtain ⟨g', nx, sp⟩ := r
    obtain ⟨es, h1, h2⟩ := fstep_forked hf
    have htr : (applyRes s u rest (g', nx, sp)).g.tr = g'.tr := by
      rw [applyRes_g]; split <;> rfl
    exact ⟨_, by rw [htr, h1], by rw [htr, h1, own_append h2]⟩

theorem go_inherited {s s1 : S} {u : Tid} {ok : Bool} {v : Nat}
    (hn : next s (.step u (.go ok v)) = some s1) (h : notInherited s.g.tr) :
    notInherited s1.g.tr := by
  obtain ⟨es, h1, h2⟩ := go_tr hn
  intro t how hm
  rw [h1] at hm
  rw [h2]
  rcases List.mem_append.1 hm with hm | hm
  · exact List.mem_append_left _ hm
  · exact List.mem_append_right _ (h t how hm)

theorem not_inherited_of {A : S → Lbl → Prop} {s : S} (hs : ReachA A s) {t : Tid} {how : How}
    (h : (t, .beginExit how) ∈ own s.g.tr) : notInherited s.g.tr := by
  intro w how' hw
  obtain ⟨r, e1, _⟩ := own_split s.g.tr
  rw [e1] at hw
  rcases List.mem_append.1 hw with hw | hw
  · exact hw
  · exact absurd hw (fun hw => begin_own hs h e1 hw)

/-- A thread that exits goes on exiting. -/
theorem go_exiting {s s1 : S} {u t : Tid} {ok : Bool} {v : Nat} (hr : ReachA Orderly s)
    (hn : next s (.step u (.go ok v)) = some s1) (hd1 : s1.g.dead = false) (h : exiting s t) :
    exiting s1 t := by
  have hm := move_of_next hn
  cases hm with
  | @go _ f rest _ _ r _ ht hf =>
    obtain ⟨g', nx, sp⟩ := r
    obtain ⟨⟨x, hx, hpx⟩, hno⟩ := h
    have htn : t ≠ s.g.nextTid := by
      intro e
      rw [e, fresh_inv hr _ (Nat.le_refl _)] at hx; cases hx
    by_cases e : t = u
    · subst e
      rw [ht] at hx hno
      have hpf := hno f List.mem_cons_self
      cases nx with
      | die => rw [applyRes_g, if_pos rfl] at hd1; cases hd1
      | unwind =>
        exfalso
        cases f <;> fstep_cases hf <;> cases hpf
      | go l =>
        have hth : (applyRes s t rest (g', .go l, sp)).th t = l ++ rest := by
          simp [applyRes, setTh]
        unfold exiting inStack
        rw [hth]
        refine ⟨?_, fun y hy => ?_⟩
        · rcases List.mem_cons.1 hx with e | hx
          · subst e
            have : ∃ y ∈ l, y.exits = true := by
              cases x <;> first | (simp [Frame.exits] at hpx; done) | skip
              case xSig b =>
                cases b
                · fstep_cases hf; exact ⟨_, List.mem_cons_of_mem _ List.mem_cons_self, rfl⟩
                · cases hpx
              case xSig2 b =>
                cases b
                · fstep_cases hf; contradiction
                · cases hpx
              all_goals fstep_cases hf
              all_goals first
                | exact ⟨_, List.mem_cons_self, rfl⟩
                | exact ⟨_, List.mem_cons_of_mem _ List.mem_cons_self, rfl⟩
            obtain ⟨y, hy, hpy⟩ := this
            exact ⟨y, List.mem_append_left _ hy, hpy⟩
          · exact ⟨x, List.mem_append_right _ hx, hpx⟩
        · rcases List.mem_append.1 hy with hy | hy
          · clear hno hx ht hn hr hth hd1
            cases f <;> fstep_cases hf <;>
              simp only [List.mem_cons, List.not_mem_nil, or_false] at hy <;>
              (try (rcases hy with hy | hy)) <;> (try subst hy) <;> first
              | rfl
              | (cases hpf; done)
              | (cases hy; done)
              | (split at hy <;> simp at hy <;> subst hy <;> rfl)
          · exact hno y (List.mem_cons_of_mem _ hy)
    · have hth : (applyRes s u rest (g', nx, sp)).th t = s.th t := by
        cases nx <;> cases sp <;> simp [applyRes, setTh, e, htn]
      unfold exiting inStack
      rw [hth]
      exact ⟨⟨x, hx, hpx⟩, hno⟩

/-! ## A fair execution -/

theorem FairRun.exiting {σ : Nat → S} {act : Nat → Act} (R : FairRun σ act)
    (hd : ∀ i, (σ i).g.dead = false) {i j : Nat} (h : i ≤ j) {t : Tid}
    (he : exiting (σ i) t) : exiting (σ j) t := by
  induction h with
  | refl => exact he
  | @step j hj ih =>
    cases ha : act j with
    | none => rw [R.none ha]; exact ih
    | some a =>
      obtain ⟨u, ok, v⟩ := a
      exact go_exiting (R.reach j) (R.some ha).2 (hd _) ih

section
variable {σ : Nat → S} {act : Nat → Act} (R : CleanRun σ act)
include R

theorem CleanRun.reach (i : Nat) : ReachA CleanOrderly (σ i) := by
  induction i with
  | zero => exact R.start
  | succ i ih =>
    cases h : act i with
    | none => rw [R.fair.none h]; exact ih
    | some a =>
      obtain ⟨u, ok, v⟩ := a
      exact .next ih ⟨R.clean i u ok v h, (R.fair.some h).1⟩ (R.fair.some h).2

theorem CleanRun.event {i j : Nat} (h : i ≤ j) {x : Tid × Ev} (hx : x ∈ own (σ i).g.tr) :
    x ∈ own (σ j).g.tr := by
  induction h with
  | refl => exact hx
  | @step j hj ih =>
    cases ha : act j with
    | none => rw [R.fair.none ha]; exact ih
    | some a =>
      obtain ⟨u, ok, v⟩ := a
      obtain ⟨es, _, h2⟩ := go_tr (R.fair.some ha).2
      rw [h2]; exact List.mem_append_right _ ih

theorem CleanRun.inherited {i j : Nat} (h : i ≤ j) (hx : notInherited (σ i).g.tr) :
    notInherited (σ j).g.tr := by
  induction h with
  | refl => exact hx
  | @step j hj ih =>
    cases ha : act j with
    | none => rw [R.fair.none ha]; exact ih
    | some a =>
      obtain ⟨u, ok, v⟩ := a
      exact go_inherited (R.fair.some ha).2 ih

/-- A process that ends. -/
theorem CleanRun.ends {i k : Nat} (hi : (σ i).g.dead = false) (hk : (σ k).g.dead = true)
    (hn : notInherited (σ i).g.tr) : finiDelivered (σ k).g.tr ∨ abruptEnd σ act := by
  have hik : i ≤ k := by
    apply Classical.byContradiction
    intro h
    rw [R.fair.dead hk (j := i) (by omega), hk] at hi; cases hi
  have key : ∀ k, i ≤ k → (σ k).g.dead = true → finiDelivered (σ k).g.tr ∨ abruptEnd σ act := by
    intro k hik
    induction hik with
    | refl => intro h; rw [hi] at h; cases h
    | @step k hik ih =>
      intro hk
      cases hd : (σ k).g.dead with
      | true =>
        rw [R.fair.dead hd (Nat.le_succ k)]
        exact ih hd
      | false =>
        cases ha : act k with
        | none => rw [R.fair.none ha, hd] at hk; cases hk
        | some a =>
          obtain ⟨w, ok, v⟩ := a
          rcases end_step (R.reach k) ⟨R.clean k w ok v ha, (R.fair.some ha).1⟩
            (R.fair.some ha).2 hd hk with h | h
          · exact Or.inl (delivered_of_released (R.reach (k + 1)) h
              (R.inherited (Nat.le_succ_of_le hik) hn))
          · exact Or.inr ⟨k, w, ok, v, ha, hd, hk, h⟩
  exact key k hik hk

end

end Libmonitor.Proc
