import Verif.Proc.SpecWait
import Verif.Proc.Broad
import Verif.Proc.ChildExit
/-!
# Threads that wait for each other: invariants of orderly executions
-/

namespace Libmonitor.Proc

/-- Frames that may come to wait: directly, or what they go on with. -/
def Frame.mayWait : Frame → Bool
  | .start | .mainAt0 | .mainAt | .mainApp | .ep0 _ | .ep1 .. | .ep2 .. | .epBegin _ | .epWait _
  | .px0 | .px1 | .sd0 | .sd1 | .sd2 | .sd3 | .sdScan .. | .sdKill .. | .sdScan2 ..
  | .cl0 _ | .fin0 _ .cleanup | .finCb _ .cleanup _ | .ul0 _
  | .bt0 _ | .bt1 _ | .bt2 _ | .bt3 _ | .btInit _ | .bt4 _ | .bt5 _ | .btApp _
  | .pc0 .. | .pc1 .. | .pc2 .. | .pc3 .. | .pc4 .. | .pcSup0 .. | .pcSup1 .. | .pcSup ..
  | .pc5 .. | .pcPre .. | .mk0 .. =>
    true
  | _ => false

/-- Frames that may come to wait for exit processing, or end the thread. -/
def Frame.mayEnd : Frame → Bool
  | .start | .mainAt0 | .mainAt | .mainApp | .ep0 _ | .ep1 .. | .epWait _ | .px0 | .px1 => true
  | _ => false

/-- ... or come to poll. -/
def Frame.mayPoll : Frame → Bool
  | .ep2 .. | .epBegin _ | .sd0 | .sd1 | .sd2 | .sd3 | .sdScan .. | .sdKill .. | .sdScan2 .. => true
  | f => f.mayEnd

/-- `a` must not run on top of `b`. -/
def clash (a b : Frame) : Bool :=
  (a.mayWait && b.inLock) || (a.mayEnd && b.inEnd) || (a.mayPoll && b.inFini.isSome)

def Tidy (l : List Frame) : Prop := l.Pairwise (fun a b => clash a b = false)

theorem clash_of_not {a b : Frame} (h1 : a.mayWait = false) (h2 : a.mayEnd = false)
    (h3 : a.mayPoll = false) : clash a b = false := by
  simp [clash, h1, h2, h3]

theorem clash_of_duty {a b : Frame} (h : b.duty = false) : clash a b = false := by
  simp only [Frame.duty, Bool.or_eq_false_iff] at h
  simp [clash, h.1.1, h.1.2, h.2]

/-- Frame `a` may take the place of `f`. -/
def fits (f a : Frame) : Bool :=
  (!a.mayWait || f.mayWait) && (!a.mayEnd || f.mayEnd) && (!a.mayPoll || f.mayPoll)

def fitsNext (f : Frame) : Next → Bool
  | .go l => l.all (fits f) && decide (l.Pairwise (fun a b => clash a b = false))
  | .unwind => f.mayEnd
  | .die => true

theorem clash_fits {f a b : Frame} (h : fits f a = true) (hc : clash f b = false) :
    clash a b = false := by
  unfold fits at h
  unfold clash at *
  revert h hc
  generalize a.mayWait = x1
  generalize a.mayEnd = x2
  generalize a.mayPoll = x3
  generalize f.mayWait = y1
  generalize f.mayEnd = y2
  generalize f.mayPoll = y3
  generalize b.inLock = z1
  generalize b.inEnd = z2
  generalize b.inFini.isSome = z3
  revert x1 x2 x3 y1 y2 y3 z1 z2 z3
  decide

/-- A step only leads to frames that could be foreseen. -/
theorem go_fits {g g' : G} {t : Tid} {ok : Bool} {v : Nat} {f : Frame} {nx : Next}
    {sp : Option Frame} (h : fstep g t ok v f = some (g', nx, sp)) : fitsNext f nx = true := by
  cases f
  case fin0 n src => cases src <;> fstep_cases h <;> rfl
  case finCb n src tid => cases src <;> fstep_cases h <;> first | rfl | contradiction
  all_goals (fstep_cases h <;> rfl)

theorem clash_duty {a b : Frame} (ha : a.mayEnd = true) (h : clash a b = false) :
    b.duty = false := by
  have h1 : a.mayWait = true := by cases a <;> first | rfl | (simp [Frame.mayEnd] at ha; done)
  have h2 : a.mayPoll = true := by cases a <;> first | rfl | (simp [Frame.mayEnd] at ha; done)
  simpa [clash, ha, h1, h2, Frame.duty] using h

theorem tidy_unwound (l : List Frame) : Tidy (unwound l) := by
  rcases unwound_cases l with h | ⟨_, n, _, _, h⟩ <;> rw [h]
  · exact List.pairwise_singleton _ _
  · exact .cons (by simp [clash, Frame.inLock, Frame.inEnd, Frame.inFini])
      (List.pairwise_singleton _ _)

theorem tidy_push {l rest : List Frame} (hl : Tidy l) (hr : Tidy rest)
    (h : ∀ a ∈ l, ∀ b ∈ rest, clash a b = false) : Tidy (l ++ rest) :=
  List.pairwise_append.2 ⟨hl, hr, h⟩

theorem api_may {a : Api} {f : Frame} (h : f ∈ a.frames) (hl : a.leaves = false) :
    f.mayEnd = false ∧ f.mayPoll = false ∧ (a.isCreate = false → f.mayWait = false) := by
  cases a <;> simp only [Api.frames] at h <;> (try split at h) <;>
    simp only [List.mem_cons, List.not_mem_nil, or_false] at h <;>
    first
    | (subst h
       first
       | exact ⟨rfl, rfl, fun _ => rfl⟩
       | (refine ⟨rfl, rfl, fun e => ?_⟩; cases e; done)
       | (simp [Api.leaves] at hl; done))
    | (rename_i e; subst e; simp [Api.leaves] at hl; done)
    | (simp [Api.leaves] at hl; done)

theorem api_tidy (a : Api) : Tidy a.frames := by
  cases a <;> simp only [Api.frames] <;> (try split) <;>
    simp [Tidy, clash, Frame.mayWait, Frame.mayEnd, Frame.mayPoll, Frame.inLock, Frame.inEnd,
      Frame.inFini]

/-- In orderly executions nothing runs on top of something it might have to wait for. -/
theorem tidy_inv {s : S} (hs : ReachA Orderly s) : ∀ t, Tidy (s.th t) := by
  have set : ∀ {th : Tid → List Frame} {t : Tid} {l : List Frame}, (∀ u, Tidy (th u)) → Tidy l →
      ∀ u, Tidy (setTh th t l u) := by
    intro th t l ih hl u
    by_cases e : u = t
    · subst e; rw [setTh_self]; exact hl
    · rw [setTh_ne _ _ e]; exact ih u
  induction hs with
  | init =>
    intro t
    show Tidy (if t = 0 then [Frame.start] else [])
    split
    · exact List.pairwise_singleton _ _
    · exact .nil
  | @next s s' l hr hA hn ih =>
    have hm := move_of_next hn
    cases hm with
    | @go t f rest ok v r hd ht hf =>
      obtain ⟨g', nx, sp⟩ := r
      have h1 := go_fits hf
      have h2 := ih t
      rw [ht] at h2
      obtain ⟨h2, h3⟩ := List.pairwise_cons.1 h2
      have hsp : ∀ u, Tidy ((match sp with
          | some f => setTh s.th s.g.nextTid [f]
          | none => s.th) u) := by
        cases sp with
        | none => exact ih
        | some f0 => exact set ih (List.pairwise_singleton _ _)
      cases nx with
      | go l =>
        simp only [fitsNext, Bool.and_eq_true, List.all_eq_true, decide_eq_true_eq] at h1
        exact set hsp (tidy_push h1.2 h3 (fun a ha b hb => clash_fits (h1.1 a ha) (h2 b hb)))
      | unwind => exact set hsp (tidy_unwound _)
      | die => exact hsp
    | @call t f rest a hd ht hf =>
      refine set ih (tidy_push (api_tidy a) (ht ▸ ih t) ?_)
      intro x hx b hb
      rw [← ht] at hb
      cases hl : a.leaves with
      | true => exact clash_of_duty (hA.1 hl b hb)
      | false =>
        obtain ⟨h1, h2, h3⟩ := api_may hx hl
        cases hc : a.isCreate with
        | true => simp [clash, h1, h2, hA.2 hc b hb]
        | false => exact clash_of_not (h3 hc) h1 h2
    | @unwind t f rest hd ht hf => exact set ih (tidy_unwound _)
    | @deliver t f rest hd ht hon hh =>
      exact set ih (.cons (fun b _ => clash_of_not rfl rfl rfl) (ht ▸ ih t))
    | @interrupt t f rest hd ht =>
      exact set ih (.cons (fun b _ => clash_of_not rfl rfl rfl) (ht ▸ ih t))
    | @fork t c d rest hd ht =>
      have h2 := ih t
      rw [ht] at h2
      exact set (fun _ => .nil) (.cons (fun b _ => clash_of_not rfl rfl rfl)
        (.cons (fun b _ => clash_of_not rfl rfl rfl) (List.pairwise_cons.1 h2).2))
    | @realFork t rest hd ht =>
      have h2 := ih t
      rw [ht] at h2
      exact set (fun _ => .nil) (.cons (fun b _ => clash_of_not rfl rfl rfl)
        (List.pairwise_cons.1 h2).2)

/-- If a state of the globals can only be brought about by a thread that then has a certain
duty, and only ends with it, then there is such a thread while the state lasts. -/
theorem duty_inv {P : G → Prop} {p : Frame → Bool} (h0 : ¬ P {}) (hp : ∀ f, p f = true → f.duty = true)
    (hdead : ∀ g, P { g with dead := true } → P g)
    (hfork : ∀ g t b, P (g.emit t (.forked b)) → P g)
    (hgo : ∀ {s : S} {t : Tid} {f : Frame} {rest : List Frame} {ok : Bool} {v : Nat} {g' : G}
      {nx : Next} {sp : Option Frame}, Orderly s (.step t (.go ok v)) → s.th t = f :: rest →
      fstep s.g t ok v f = some (g', nx, sp) → P g' →
      (P s.g ∧ (p f = true → nx = .die)) ∨ (∃ l, nx = .go l ∧ l.any p = true))
    {s : S} (hs : ReachA Orderly s) (h : P s.g) : ∃ w f, f ∈ s.th w ∧ p f = true := by
  induction hs with
  | init => exact absurd h h0
  | @next s s' l hr hA hn ih =>
    have hm := move_of_next hn
    have keep : ∀ {t : Tid} {l : List Frame}, P s.g → (∀ f ∈ s.th t, p f = true → f ∈ l) →
        ∃ w f, f ∈ setTh s.th t l w ∧ p f = true := by
      intro t l h hk
      obtain ⟨w, f, hf, hpf⟩ := ih h
      refine ⟨w, f, ?_, hpf⟩
      by_cases e : w = t
      · subst e; rw [setTh_self]; exact hk f hf hpf
      · rw [setTh_ne _ _ e]; exact hf
    have hcf : ∀ t, Orderly s (.fork t) → P s.g → ∃ f ∈ s.th t, p f = true := by
      intro t hA h
      obtain ⟨w, f, hf, hpf⟩ := ih h
      by_cases e : w = t
      · subst e; exact ⟨f, hf, hpf⟩
      · by_cases hw : w < s.g.nextTid
        · have := hA w hw e f hf
          rw [hp f hpf] at this; cases this
        · rw [fresh_inv hr w (by omega)] at hf; cases hf
    cases hm with
    | @go t f rest ok v r hd ht hf =>
      obtain ⟨g', nx, sp⟩ := r
      have hg : P g' := by
        rw [applyRes_g] at h
        split at h
        · exact hdead _ h
        · exact h
      have htidy := tidy_inv hr t
      rw [ht] at htidy
      have hfit := go_fits hf
      have hne : ∀ w x, x ∈ s.th w → w ≠ s.g.nextTid := by
        intro w x hx e
        rw [e, fresh_inv hr _ (Nat.le_refl _)] at hx; cases hx
      -- the stacks but for the one that moves
      have hsp : ∀ {w x}, x ∈ s.th w → x ∈ (match sp with
          | some f => setTh s.th s.g.nextTid [f]
          | none => s.th) w := by
        intro w x hx
        cases sp with
        | none => exact hx
        | some f0 =>
          show x ∈ setTh s.th s.g.nextTid [f0] w
          rw [setTh_ne _ _ (hne w x hx)]; exact hx
      rcases hgo hA ht hf hg with ⟨h1, h2⟩ | ⟨l, rfl, hl⟩
      · obtain ⟨w, x, hx, hpx⟩ := ih h1
        cases nx with
        | die => exact ⟨w, x, hsp hx, hpx⟩
        | go l =>
          refine ⟨w, x, ?_, hpx⟩
          show x ∈ setTh _ t (l ++ rest) w
          by_cases e : w = t
          · subst e
            rw [setTh_self]
            rw [ht] at hx
            rcases List.mem_cons.1 hx with e | hx
            · subst e; exact absurd (h2 hpx) (by simp)
            · exact List.mem_append_right _ hx
          · rw [setTh_ne _ _ e]; exact hsp hx
        | unwind =>
          refine ⟨w, x, ?_, hpx⟩
          show x ∈ setTh _ t (unwound rest) w
          by_cases e : w = t
          · subst e
            rw [ht] at hx
            rcases List.mem_cons.1 hx with e | hx
            · subst e; exact absurd (h2 hpx) (by simp)
            · have := clash_duty hfit ((List.pairwise_cons.1 htidy).1 x hx)
              rw [hp x hpx] at this; cases this
          · rw [setTh_ne _ _ e]; exact hsp hx
      · obtain ⟨x, hx, hpx⟩ := List.any_eq_true.1 hl
        refine ⟨t, x, ?_, hpx⟩
        show x ∈ setTh _ t (l ++ rest) t
        rw [setTh_self]; exact List.mem_append_left _ hx
    | @call t f rest a hd ht hf =>
      exact keep h (fun x hx _ => by rw [ht] at hx; exact List.mem_append_right _ hx)
    | @unwind t f rest hd ht hf =>
      refine keep h (fun x hx hpx => ?_)
      have := hA x hx
      rw [hp x hpx] at this; cases this
    | @deliver t f rest hd ht hon hh =>
      exact keep h (fun x hx _ => by rw [ht] at hx; exact List.mem_cons_of_mem _ hx)
    | @interrupt t f rest hd ht =>
      exact keep h (fun x hx _ => by rw [ht] at hx; exact List.mem_cons_of_mem _ hx)
    | @fork t c d rest hd ht =>
      obtain ⟨x, hx, hpx⟩ := hcf t hA (hfork _ _ _ h)
      refine ⟨t, x, ?_, hpx⟩
      show x ∈ setTh (fun _ => []) t _ t
      rw [setTh_self]
      rw [ht] at hx
      rcases List.mem_cons.1 hx with e | hx
      · subst e; exact absurd (hp _ hpx) (by simp [Frame.duty, Frame.inLock, Frame.inEnd, Frame.inFini])
      · exact List.mem_cons_of_mem _ (List.mem_cons_of_mem _ hx)
    | @realFork t rest hd ht =>
      obtain ⟨x, hx, hpx⟩ := hcf t hA (hfork _ _ _ h)
      refine ⟨t, x, ?_, hpx⟩
      show x ∈ setTh (fun _ => []) t _ t
      rw [setTh_self]
      rw [ht] at hx
      rcases List.mem_cons.1 hx with e | hx
      · subst e; exact absurd (hp _ hpx) (by simp [Frame.duty, Frame.inLock, Frame.inEnd, Frame.inFini])
      · exact List.mem_cons_of_mem _ hx

theorem holder_inv {s : S} (hs : ReachA Orderly s) (h : s.g.lock = true) :
    ∃ w f, f ∈ s.th w ∧ f.inLock = true := by
  refine duty_inv (P := fun g => g.lock = true) (p := Frame.inLock) (by simp)
    (fun f h => by simp [Frame.duty, h]) (fun _ h => h) (fun _ _ _ h => h) ?_ hs h
  intro s t f rest ok v g' nx sp _ ht hf h
  cases f <;> fstep_cases hf <;>
    first
    | (refine Or.inr ⟨_, rfl, ?_⟩; rfl)
    | (refine Or.inl ⟨h, fun e => ?_⟩; cases e; done)
    | (refine Or.inl ⟨h, fun e => ?_⟩; rfl)
    | (cases h; done)
    | (refine Or.inl ⟨?_, fun e => ?_⟩
       · simpa [G.emit, G.upd] using h
       · cases e; done)

theorem ender_inv {s : S} (hs : ReachA Orderly s) (h : s.g.cookie = true)
    (hd : s.g.finiProcDone = false) : ∃ w f, f ∈ s.th w ∧ f.inEnd = true := by
  refine duty_inv (P := fun g => g.cookie = true ∧ g.finiProcDone = false) (p := Frame.inEnd)
    (by simp) (fun f h => by simp [Frame.duty, h]) (fun _ h => h) (fun _ _ _ h => h) ?_ hs ⟨h, hd⟩
  intro s t f rest ok v g' nx sp hA ht hf h
  cases f
  case bpFlags d =>
    have := hA (.bpFlags d) (by rw [ht]; rfl) rfl
    fstep_cases hf
    rw [show (_ : Bool) = true from h.1] at this; cases this
  all_goals
    fstep_cases hf <;>
    first
    | (refine Or.inr ⟨_, rfl, ?_⟩; rfl)
    | (refine Or.inl ⟨h, fun e => ?_⟩; cases e; done)
    | (refine Or.inl ⟨h, fun e => ?_⟩; rfl)
    | (cases h.2; done)
    | (refine Or.inl ⟨?_, fun e => ?_⟩
       · simpa [G.emit, G.upd] using h
       · cases e; done)

theorem finier_inv {s : S} (hs : ReachA Orderly s) {n : NodeId} (h : (s.g.nodes n).finiS = true)
    (hd : (s.g.nodes n).finiD = false) :
    ∃ w f, f ∈ s.th w ∧ f.inFini = some n := by
  have := duty_inv (P := fun g => (g.nodes n).finiS = true ∧ (g.nodes n).finiD = false)
    (p := fun f => decide (f.inFini = some n)) (by cases n <;> simp) (fun f h => ?_) (fun _ h => h)
    (fun _ _ _ h => h) ?_ hs ⟨h, hd⟩
  · simpa using this
  · have h : f.inFini = some n := by simpa using h
    simp [Frame.duty, h]
  · intro s t f rest ok v g' nx sp hA ht hf h
    cases f
    case fin0 m src =>
      fstep_cases hf
      by_cases e : n = m
      · exact Or.inr ⟨_, rfl, by simp [Frame.inFini, e]⟩
      · refine Or.inl ⟨?_, fun e' => by simp [Frame.inFini] at e'⟩
        simpa [G.emit, G.upd, e] using h
    case finCb m src tid =>
      fstep_cases hf <;>
      · by_cases e : n = m
        · simp [G.emit, G.upd, e] at h
        · refine Or.inl ⟨?_, fun e' => ?_⟩
          · simpa [G.emit, G.upd, e] using h
          · simp [Frame.inFini] at e'; exact absurd e'.symm e
    case bpReset d =>
      fstep_cases hf
      refine Or.inl ⟨?_, fun e' => by simp [Frame.inFini] at e'⟩
      by_cases e : n = .main
      · subst e
        simp only [G.emit, G.upd, if_true] at h
        revert h
        unfold resetList
        split
        · simp only [if_true]
          unfold resetMain
          split
          · exact id
          · split
            · exact id
            · simp
        · exact id
      · simp only [G.emit, G.upd, if_neg e] at h
        revert h
        unfold resetList
        split
        · simp only [if_neg e]; exact id
        · exact id
    case rfReset =>
      fstep_cases hf
      refine Or.inl ⟨?_, fun e' => by simp [Frame.inFini] at e'⟩
      revert h
      simp only [G.emit]
      unfold resetList
      split
      · by_cases e : n = .main
        · subst e
          simp only [if_true]
          unfold resetMain
          split
          · exact id
          · split
            · exact id
            · simp
        · simp only [if_neg e]; exact id
      · exact id
    all_goals
      fstep_cases hf <;>
      first
      | (refine Or.inl ⟨h, fun e' => ?_⟩; simp [Frame.inFini] at e'; done)
      | (refine Or.inl ⟨?_, fun e' => by simp [Frame.inFini] at e'⟩
         simp only [G.emit, G.upd, listInit] at h
         split at h <;> rename_i e <;> simp_all)

end Libmonitor.Proc
