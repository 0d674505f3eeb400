import Verif.Proc.SpecNest
import Verif.Proc.Life
import Verif.Proc.ForkInv
/-!
# Nesting of calls and callbacks: lemmas
-/

namespace Libmonitor.Proc

/-- What is open in a frame, innermost first. -/
def Frame.spans : Frame → List Span
  | .blCb => [.initLibrary]
  | .elCb => [.finiLibrary]
  | .bpCb => [.initProcess]
  | .epBegin how => [.beginExit how]
  | .epFini how => [.finiProcess how]
  | .finCb _ _ tid => [.finiThread tid]
  | .btInit _ => [.initThread]
  | .pc3 c .. | .pc4 c .. | .pcSup0 c .. | .pcSup1 c .. | .pc5 c .. | .mk0 c .. | .mk1 c ..
  | .pc6 c .. | .pcStack c .. | .pc7 c .. | .pc8 c .. | .pcIgn c .. => [.create c]
  | .pcSup c .. => [.support, .create c]
  | .pcPre c .. => [.preCreate c, .create c]
  | .pcPost c _ => [.postCreate c, .create c]
  | .br1 sig _ | .brKill sig .. | .br2 sig => [.broadcast sig]
  | .fkPre c => [.preFork c, .fork c]
  | .fkReal c _ | .fkChild c => [.fork c]
  | .fkPost0 c _ _ => [.fork c]
  | .fkPost c _ => [.postFork c, .fork c]
  | _ => []

def spans (l : List Frame) : List Span := l.flatMap Frame.spans

theorem spans_nil : spans [] = [] := rfl
theorem spans_cons (f : Frame) (l : List Frame) : spans (f :: l) = f.spans ++ spans l := rfl
theorem spans_append (l m : List Frame) : spans (l ++ m) = spans l ++ spans m := by
  simp [spans]

theorem spans_unwound (l : List Frame) : spans (unwound l) = [] := by
  rcases unwound_cases l with h | ⟨_, n, _, _, h⟩ <;> rw [h] <;> rfl

theorem spans_zero {l : List Frame} (h : ∀ f ∈ l, f.spans = []) : spans l = [] := by
  induction l with
  | nil => rfl
  | cons f l ih =>
    rw [spans_cons, h f (by simp), ih (fun f hf => h f (by simp [hf]))]; rfl

theorem pushable_spans {f : Frame} (h : f.pushable = true) : f.spans = [] := by
  cases f <;> simp_all [Frame.pushable, Frame.spans]

theorem opened_other {t u : Tid} (h : u ≠ t) {es : List Ev} (old : Hist)
    (hf : ∀ e ∈ es, e.isForked = false) :
    opened (es.map (fun e => (t, e)) ++ old) u = opened old u := by
  induction es with
  | nil => rfl
  | cons e es ih =>
    show (if t = u then _ else _) = _
    rw [if_neg (fun e => h e.symm), hf e (by simp)]
    exact ih (fun e he => hf e (by simp [he]))

theorem opened_cons (t : Tid) (e : Ev) (old : Hist) :
    opened ((t, e) :: old) t = e.effect (opened old t) := by
  show (if t = t then _ else _) = _
  rw [if_pos rfl]

/-- The effect of one step of a frame on what its thread has open. -/
theorem opened_go {g g' : G} {t : Tid} {ok : Bool} {v : Nat} {f : Frame} {nx : Next}
    {sp : Option Frame} {R : List Span} (h : fstep g t ok v f = some (g', nx, sp))
    (hf : ∀ c ret, f = .fkPost c ret → ret ≠ 0) (ho : opened g.tr t = f.spans ++ R) :
    (∀ l, nx = .go l → opened g'.tr t = spans l ++ R) ∧
    (nx = .die → opened g'.tr t = f.spans ++ R) := by
  cases f <;> fstep_cases h <;> refine ⟨fun l hl => ?_, fun hl => ?_⟩ <;> cases hl <;>
    first
    | exact ho
    | (simp only [Frame.spans] at ho
       simp [G.emit, G.upd, resetList_tr, opened, Ev.effect, Ev.ends, Ev.begins, ho, Frame.spans,
         spans, List.isPrefixOf]
       done)
    | (have hr := hf _ _ rfl
       simp only [Frame.spans] at ho
       simp [G.emit, opened, Ev.effect, Ev.ends, ho, hr, spans, List.isPrefixOf]
       done)

theorem nest_go {g g' : G} {t : Tid} {ok : Bool} {v : Nat} {f : Frame} {nx : Next}
    {sp : Option Frame} {R : List Span} (h : fstep g t ok v f = some (g', nx, sp))
    (hf : ∀ c ret, f = .fkPost c ret → ret ≠ 0) (ho : opened g.tr t = f.spans ++ R)
    (hA : Always nestSpec g.tr) : Always nestSpec g'.tr := by
  have no : ∀ {old : Hist} {u : Tid} {e : Ev}, e.ends = [] → nestSpec old u e :=
    fun he hne => absurd he hne
  cases f <;> fstep_cases h <;>
    first
    | exact hA
    | exact ⟨no rfl, hA⟩
    | exact ⟨no rfl, no rfl, hA⟩
    | exact ⟨fun _ => ⟨_, List.mem_singleton_self _, R, ho.symm⟩, hA⟩
    | exact ⟨fun _ => ⟨_, List.mem_singleton_self _, _, ho.symm⟩, hA⟩
    | (simp only [G.emit, G.upd, resetList_tr]; exact ⟨no rfl, hA⟩)
    | exact ⟨fun _ => ⟨_, List.mem_cons_self, R, ho.symm⟩, hA⟩
    | exact ⟨fun _ => ⟨_, List.mem_cons_of_mem _ List.mem_cons_self, R, ho.symm⟩, hA⟩
    | (refine ⟨fun _ => ⟨_, List.mem_cons_of_mem _ List.mem_cons_self, R, ?_⟩, no rfl, hA⟩
       show _ = opened ((t, _) :: _) t
       rw [opened_cons, ho]; rfl)
    | (refine ⟨fun _ => ⟨_, List.mem_cons_self, R, ?_⟩, no rfl, hA⟩
       show _ = opened ((t, _) :: _) t
       rw [opened_cons, ho]; rfl)
    | (refine ⟨fun _ => ⟨_, ?_, R, ho.symm⟩, hA⟩
       have hr := hf _ _ rfl
       simp only [Ev.ends, if_neg hr, Frame.spans]
       exact List.mem_cons_self)

/-- The stack of a thread holds what the thread has open; what it does not hold was abandoned when
a thread was ended. -/
theorem nest_inv {A : S → Lbl → Prop} {tidy : Prop} (hA : tidy → ∀ s l, A s l → EndsOutside s l)
    {s : S} (hs : ReachA A s) : Always nestSpec s.g.tr ∧
      ∀ u, (∃ ab, (tidy → ab = []) ∧ opened s.g.tr u = spans (s.th u) ++ ab) := by
  have emitF : ∀ {g : G} {t : Tid} {b : Bool},
      opened (g.emit t (.forked b)).tr t = opened g.tr t := by
    intro g t b
    show (if t = t then _ else _) = _
    rw [if_pos rfl]; rfl
  have emitN : ∀ {g : G} {t u : Tid} {b : Bool}, u ≠ t →
      opened (g.emit t (.forked b)).tr u = [] := by
    intro g t u b hu
    show (if t = u then _ else _) = _
    rw [if_neg (fun e => hu e.symm)]; rfl
  refine stack_invA (A := A) (GI := fun g => Always nestSpec g.tr)
    (SI := fun g u l => ∃ ab, (tidy → ab = []) ∧ opened g.tr u = spans l ++ ab)
    trivial ⟨[], fun _ => rfl, rfl⟩ (fun u _ => ⟨[], fun _ => rfl, rfl⟩) ?_ (fun _ h => h)
    (fun _ _ _ h => h) ?_ ?_ ?_ ?_ hs
  · intro s t f rest ok v g' nx sp hr ha ht hG hS h
    obtain ⟨es, he, hfk⟩ := fstep_forked h
    obtain ⟨ab, hab, ho⟩ := hS t
    rw [ht, spans_cons, List.append_assoc] at ho
    have hf : ∀ c ret, f = .fkPost c ret → ret ≠ 0 := by
      intro c ret e
      have := (forkOrder_inv hr).2 t f (by rw [ht]; exact List.mem_cons_self)
      rw [e] at this; exact this.1
    obtain ⟨h1, h2⟩ := opened_go h hf ho
    refine ⟨nest_go h hf ho hG, fun u hu _ => ?_, fun e => ?_, fun e => ?_, fun l e => ?_,
      fun f0 e => ?_⟩
    · obtain ⟨ab, hab, ho⟩ := hS u
      exact ⟨ab, hab, by rw [he, opened_other hu _ hfk, ho]⟩
    · exact ⟨ab, hab, by rw [h2 e, spans_cons, List.append_assoc]⟩
    · refine ⟨opened g'.tr t, fun ht' => ?_, by rw [spans_unwound]; rfl⟩
      have hx : (f = .px0 ∨ f = .px1) ∧ g' = s.g := by
        subst e
        cases f <;> fstep_cases h <;> simp
      rw [hx.2]
      refine hA ht' _ _ ha ?_
      rw [ht]
      rcases hx.1 with e | e <;> subst e <;> simp
    · exact ⟨ab, hab, by rw [h1 l e, spans_append, List.append_assoc]⟩
    · have hne : s.g.nextTid ≠ t := by
        intro e
        have := fresh_inv hr s.g.nextTid (Nat.le_refl _)
        rw [e, ht] at this; cases this
      obtain ⟨ab, hab, ho⟩ := hS s.g.nextTid
      rw [fresh_inv hr s.g.nextTid (Nat.le_refl _)] at ho
      refine ⟨ab, hab, ?_⟩
      rw [he, opened_other hne _ hfk, ho]
      have : f0.spans = [] := by
        subst e
        cases f <;> fstep_cases h <;> rfl
      rw [spans_cons, this]; rfl
  · intro s t i f rest pre hr ha ht hG hS _ _ hpre
    obtain ⟨ab, hab, ho⟩ := hS t
    refine ⟨ab, hab, ?_⟩
    rw [spans_append, spans_zero (l := pre) (fun f hf => pushable_spans (hpre f hf).1), ho, ht]
    rfl
  · intro s t hr ha hG hne hS
    exact ⟨opened s.g.tr t, fun ht' => hA ht' _ _ ha, by rw [spans_unwound]; rfl⟩
  · intro s t c d rest hr ha ht hG hS
    refine ⟨⟨fun h => absurd rfl h, hG⟩, ?_, fun u hu => ⟨[], fun _ => rfl, by rw [emitN hu]; rfl⟩⟩
    · obtain ⟨ab, hab, ho⟩ := hS t
      rw [ht] at ho
      exact ⟨ab, hab, by rw [emitF, ho]; rfl⟩
  · intro s t rest hr ha ht hG hS
    refine ⟨⟨fun h => absurd rfl h, hG⟩, ?_, fun u hu => ⟨[], fun _ => rfl, by rw [emitN hu]; rfl⟩⟩
    · obtain ⟨ab, hab, ho⟩ := hS t
      rw [ht] at ho
      exact ⟨ab, hab, by rw [emitF, ho]; rfl⟩

/-! ### The list lock -/

/-- The frame right above one that is inside the list lock is a signal handler (and there is such
a pair only if `q`). -/
def Above (q : Prop) : List Frame → Prop
  | a :: h :: l => (h.inLock = true → a.handler = true ∧ q) ∧ Above q (h :: l)
  | _ => True

theorem above_mem {q : Prop} {pre post : List Frame} {h : Frame} (hl : h.inLock = true)
    (ha : Above q (pre ++ h :: post)) : pre = [] ∨ (∃ a ∈ pre, a.handler = true) ∧ q := by
  induction pre with
  | nil => exact Or.inl rfl
  | cons a pre ih =>
    refine Or.inr ?_
    cases pre with
    | nil => exact ⟨⟨a, by simp, (ha.1 hl).1⟩, (ha.1 hl).2⟩
    | cons b pre =>
      rcases ih ha.2 with e | ⟨⟨x, hx, hh⟩, hq⟩
      · cases e
      · exact ⟨⟨x, by simp [hx], hh⟩, hq⟩

theorem above_fstep {q : Prop} {g g' : G} {t : Tid} {ok : Bool} {v : Nat} {f : Frame}
    {l rest : List Frame} {sp : Option Frame} (h : fstep g t ok v f = some (g', .go l, sp))
    (ha : Above q (f :: rest)) : Above q (l ++ rest) := by
  cases rest with
  | nil =>
    cases f <;> fstep_cases h <;> simp [Above, Frame.inLock]
    all_goals (split <;> simp [Above])
  | cons r rest =>
    obtain ⟨h1, h2⟩ := ha
    have key : ∀ {a : Frame}, (f.handler = true → a.handler = true) → Above q (a :: r :: rest) :=
      fun ha => ⟨fun h => ⟨ha (h1 h).1, (h1 h).2⟩, h2⟩
    have key2 : ∀ {a b : Frame}, b.inLock = false → (f.handler = true → b.handler = true) →
        Above q (a :: b :: r :: rest) :=
      fun hb ha => ⟨fun h => (by rw [hb] at h; cases h), fun h => ⟨ha (h1 h).1, (h1 h).2⟩, h2⟩
    cases f with
    | fin0 n src =>
      fstep_cases h
      refine key fun h => ?_
      cases src <;> first | rfl | cases h
    | finCb n src tid =>
      simp only [fstep, cont] at h
      split at h
      · rename_i e; subst e; cases h
        exact key fun h => by cases h
      · cases h; exact h2
    | _ =>
      fstep_cases h <;>
        first
        | exact h2
        | exact key fun _ => rfl
        | exact key fun h => nomatch h
        | exact key2 rfl fun h => nomatch h

theorem above_pre {q : Prop} {pre l : List Frame} (hp : ∀ h ∈ pre, h.inLock = false)
    (h : Above q l) (hl : ∀ b ∈ l.head?, b.inLock = false) : Above q (pre ++ l) := by
  induction pre with
  | nil => exact h
  | cons a pre ih =>
    have := ih (fun h hm => hp h (by simp [hm]))
    cases hx : pre ++ l with
    | nil =>
      show Above q (a :: (pre ++ l))
      rw [hx]; trivial
    | cons b m =>
      show Above q (a :: (pre ++ l))
      rw [hx] at this ⊢
      refine ⟨fun hb => ?_, this⟩
      have : b.inLock = false := by
        cases pre with
        | nil => exact hl b (by simp only [List.nil_append] at hx; rw [hx]; simp)
        | cons c pre => cases hx; exact hp b (by simp)
      rw [this] at hb; cases hb

theorem above_repl {q : Prop} {l rest : List Frame} {f : Frame}
    (hp : ∀ h ∈ l, h.inLock = false) (hf : f.handler = false) (h : Above q (f :: rest)) :
    Above q (l ++ rest) := by
  cases rest with
  | nil => exact above_pre hp trivial (fun b hb => nomatch hb)
  | cons r rest =>
    refine above_pre hp h.2 fun b hb => ?_
    simp only [List.head?_cons, Option.mem_def, Option.some.injEq] at hb
    subst hb
    cases e : r.inLock with
    | false => rfl
    | true => have := (h.1 e).1; rw [hf] at this; cases this

theorem pushable_inLock {f : Frame} (h : f.pushable = true) : f.inLock = false := by
  cases f <;> first | rfl | cases h

theorem foreign_inLock {f : Frame} (h : f.foreign = true) : f.inLock = false := by
  cases f <;> first | rfl | cases h

theorem above_inv {A : S → Lbl → Prop} {q : Prop}
    (hA : ¬ q → ∀ s l, A s l → UnlockedHandlers s l) {s : S} (hs : ReachA A s) :
    ∀ u, Above q (s.th u) := by
  have unw : ∀ l, Above q (unwound l) := by
    intro l
    rcases unwound_cases l with h | ⟨_, n, _, _, h⟩ <;> rw [h] <;> simp [Above, Frame.inLock]
  have set : ∀ {th : Tid → List Frame} {t : Tid} {l : List Frame}, (∀ u, Above q (th u)) →
      Above q l → ∀ u, Above q (setTh th t l u) := by
    intro th t l ih hl u
    by_cases e : u = t
    · subst e; rw [setTh_self]; exact hl
    · rw [setTh_ne _ _ e]; exact ih u
  induction hs with
  | init =>
    intro u
    show Above q (if u = 0 then [Frame.start] else [])
    split <;> trivial
  | @next s s' l hr ha hn ih =>
    have hand : ∀ {t : Tid} {a f : Frame} {rest : List Frame} {i : Inp}, l = .step t i →
        i = .deliver ∨ i = .interrupt → s.th t = f :: rest → a.handler = true →
        Above q (a :: f :: rest) := by
      intro t a f rest i hl hi ht hh
      have hu := ih t
      rw [ht] at hu
      refine ⟨fun hf => ⟨hh, ?_⟩, hu⟩
      refine Classical.byContradiction fun hq => ?_
      have : f.inLock = false := by
        have h := hA hq s l ha
        subst hl
        rcases hi with rfl | rfl <;> exact h f (by rw [ht]; simp)
      rw [this] at hf; cases hf
    cases move_of_next hn with
    | @go t f rest ok v r hd ht hf =>
      obtain ⟨g', nx, sp⟩ := r
      have hu := ih t
      rw [ht] at hu
      have hth : ∀ u, Above q ((match sp with
          | some f => setTh s.th s.g.nextTid [f]
          | none => s.th) u) := by
        cases sp with
        | none => exact ih
        | some f0 => exact set ih trivial
      cases nx with
      | go l => exact set hth (above_fstep hf hu)
      | unwind => exact set hth (unw rest)
      | die => exact hth
    | @call t f rest a hd ht hf =>
      have hu := ih t
      rw [ht] at hu
      refine set ih (above_pre (fun h hm => pushable_inLock (api_pushable hm)) hu ?_)
      intro b hb
      simp only [List.head?_cons, Option.mem_def, Option.some.injEq] at hb
      rw [← hb]; exact foreign_inLock hf
    | @unwind t f rest hd ht hf => exact set ih (unw _)
    | @deliver t f rest hd ht hon hh => exact set ih (hand rfl (Or.inl rfl) ht rfl)
    | @interrupt t f rest hd ht => exact set ih (hand rfl (Or.inr rfl) ht rfl)
    | @fork t c d rest hd ht =>
      have hu := ih t
      rw [ht] at hu
      exact set (fun _ => trivial) (above_repl (l := [_, _]) (by simp [Frame.inLock]) rfl hu)
    | @realFork t rest hd ht =>
      have hu := ih t
      rw [ht] at hu
      exact set (fun _ => trivial) (above_repl (l := [_]) (by simp [Frame.inLock]) rfl hu)

theorem ReachO.reach {A : S → Lbl → Prop} {s : S} {o : Option Tid} (h : ReachO A s o) :
    ReachA A s := by
  induction h with
  | init => exact .init
  | next _ ha hn ih => exact .next ih ha hn

theorem reachO_run {A : S → Lbl → Prop} [∀ s l, Decidable (A s l)] {s s' : S}
    {o o' : Option Tid} {ls : List Lbl} (h : ReachO A s o)
    (hr : runO A s o ls = some (s', o')) : ReachO A s' o' := by
  induction ls generalizing s o with
  | nil => cases hr; exact h
  | cons l ls ih =>
    simp only [runO] at hr
    split at hr
    · rename_i ha
      cases hn : next s l with
      | none => rw [hn] at hr; cases hr
      | some s1 => rw [hn] at hr; exact ih (.next h ha hn) hr
    · cases hr

theorem exists_of_runO {A : S → Lbl → Prop} [∀ s l, Decidable (A s l)] {ls : List Lbl}
    {p : S → Option Tid → Bool}
    (h : ((runO A {} none ls).map (fun x => p x.1 x.2)).getD false = true) :
    ∃ s o, ReachO A s o ∧ p s o = true := by
  cases hr : runO A {} none ls with
  | none => rw [hr] at h; exact absurd h (by simp)
  | some x =>
    rw [hr] at h
    exact ⟨x.1, x.2, reachO_run .init hr, by simpa using h⟩

theorem resetList_keeps (g : G) (t : Tid) : (resetList g t).lock = g.lock := by
  unfold resetList; split <;> rfl

/-- A step that takes the lock goes on inside it. -/
theorem lock_taken {g g' : G} {t : Tid} {ok : Bool} {v : Nat} {f : Frame} {nx : Next}
    {sp : Option Frame} (h : fstep g t ok v f = some (g', nx, sp)) (h0 : g.lock = false)
    (h1 : g'.lock = true) : ∃ x, nx = .go [x] ∧ x.inLock = true := by
  cases f <;> fstep_cases h <;>
    first
    | exact ⟨_, rfl, rfl⟩
    | exact absurd (h0.symm.trans h1) Bool.false_ne_true
    | exact absurd h1 Bool.false_ne_true
    | (have h1 : (resetList g t).lock = true := h1
       rw [resetList_keeps] at h1
       exact absurd (h0.symm.trans h1) Bool.false_ne_true)

/-- Inside the lock, a step releases it, stays inside, or is the last. -/
theorem lock_kept {g g' : G} {t : Tid} {ok : Bool} {v : Nat} {f : Frame} {nx : Next}
    {sp : Option Frame} (h : fstep g t ok v f = some (g', nx, sp)) (hf : f.inLock = true)
    (h1 : g'.lock = true) : nx = .die ∨ ∃ x, nx = .go [x] ∧ x.inLock = true := by
  cases f <;> first
    | cases hf
      done
    | (fstep_cases h <;>
        first
        | exact Or.inr ⟨_, rfl, rfl⟩
        | exact Or.inl rfl
        | (exfalso; exact absurd h1 (by simp [G.emit, G.upd])))

theorem heldBy_inv {s : S} {o : Option Tid} (hs : ReachO UnlockedHandlers s o) :
    ∀ u, o = some u → u < s.g.nextTid ∧ s.g.lock = true ∧
      ((∃ h rest, s.th u = h :: rest ∧ h.inLock = true) ∨ s.th u = []) := by
  induction hs with
  | init => intro u h; cases h
  | @next s s' o l hr ha hn ih =>
    intro u hu
    simp only [holder] at hu
    split at hu
    · rename_i h1
      have hth : ∀ {t : Tid} {f : Frame} {rest : List Frame}, s.th t = f :: rest →
          t < s.g.nextTid := by
        intro t f rest ht
        refine Nat.lt_of_not_le fun hc => ?_
        rw [fresh_inv hr.reach t hc] at ht; cases ht
      have hsp : ∀ {t : Tid} {f : Frame} {rest : List Frame} {ok : Bool} {v : Nat} {g' : G}
          {nx : Next} {sp : Option Frame}, fstep s.g t ok v f = some (g', nx, sp) →
          s.g.nextTid ≤ g'.nextTid := by
        intro t f rest ok v g' nx sp h
        rcases fstep_spawn h with ⟨_, e⟩ | ⟨_, _, _, e, _⟩ <;> omega
      split at hu
      · obtain ⟨hn1, hlk, hst⟩ := ih u hu
        cases move_of_next hn with
        | @go t f rest ok v r hd ht hf =>
          obtain ⟨g', nx, sp⟩ := r
          have hg : (applyRes s t rest (g', nx, sp)).g.nextTid = g'.nextTid := by
            cases nx <;> rfl
          have hl : g'.lock = true := by cases nx <;> exact h1
          refine ⟨by rw [hg]; exact Nat.lt_of_lt_of_le hn1 (hsp (rest := rest) hf), h1, ?_⟩
          by_cases e : u = t
          · subst e
            rcases hst with ⟨h, r, hh, hi⟩ | he
            · rw [ht] at hh; cases hh
              rcases lock_kept hf hi hl with rfl | ⟨x, rfl, hx⟩
              · refine Or.inl ⟨f, rest, ?_, hi⟩
                rcases fstep_spawn hf with ⟨rfl, _⟩ | ⟨_, _, _, _, e⟩
                · exact ht
                · cases e
              · exact Or.inl ⟨x, rest, by simp [applyRes, setTh], hx⟩
            · rw [ht] at he; cases he
          · have hne : u ≠ s.g.nextTid := by omega
            have : (applyRes s t rest (g', nx, sp)).th u = s.th u := by
              cases nx <;> cases sp <;> simp [applyRes, setTh, e, hne]
            rw [this]; exact hst
        | @call t f rest a hd ht hf =>
          refine ⟨hn1, h1, ?_⟩
          by_cases e : u = t
          · subst e
            rcases hst with ⟨h, r, hh, hi⟩ | he
            · rw [ht] at hh; cases hh; rw [foreign_inLock hf] at hi; cases hi
            · rw [ht] at he; cases he
          · show _ ∨ setTh _ _ _ u = []
            simpa [setTh, e] using hst
        | @unwind t f rest hd ht hf =>
          refine ⟨hn1, h1, ?_⟩
          by_cases e : u = t
          · subst e
            rcases hst with ⟨h, r, hh, hi⟩ | he
            · rw [ht] at hh; cases hh; rw [foreign_inLock hf] at hi; cases hi
            · rw [ht] at he; cases he
          · simpa [setTh, e] using hst
        | @deliver t f rest hd ht hon hh =>
          refine ⟨hn1, h1, ?_⟩
          by_cases e : u = t
          · subst e
            rcases hst with ⟨h, r, hh, hi⟩ | he
            · rw [ht] at hh; cases hh
              have : f.inLock = false := ha f (by rw [ht]; simp)
              rw [this] at hi; cases hi
            · rw [ht] at he; cases he
          · simpa [setTh, e] using hst
        | @interrupt t f rest hd ht =>
          refine ⟨hn1, h1, ?_⟩
          by_cases e : u = t
          · subst e
            rcases hst with ⟨h, r, hh, hi⟩ | he
            · rw [ht] at hh; cases hh
              have : f.inLock = false := ha f (by rw [ht]; simp)
              rw [this] at hi; cases hi
            · rw [ht] at he; cases he
          · simpa [setTh, e] using hst
        | @fork t c d rest hd ht =>
          refine ⟨hn1, h1, ?_⟩
          by_cases e : u = t
          · subst e
            rcases hst with ⟨h, r, hh, hi⟩ | he
            · rw [ht] at hh; cases hh; cases hi
            · rw [ht] at he; cases he
          · exact Or.inr (by simp [setTh, e])
        | @realFork t rest hd ht =>
          refine ⟨hn1, h1, ?_⟩
          by_cases e : u = t
          · subst e
            rcases hst with ⟨h, r, hh, hi⟩ | he
            · rw [ht] at hh; cases hh; cases hi
            · rw [ht] at he; cases he
          · exact Or.inr (by simp [setTh, e])
      · rename_i h0
        have h0 : s.g.lock = false := by simpa using h0
        have no : s'.g.lock ≠ s.g.lock := by rw [h0, h1]; simp
        cases move_of_next hn with
        | @go t f rest ok v r hd ht hf =>
          obtain ⟨g', nx, sp⟩ := r
          have hl : g'.lock = true := by cases nx <;> exact h1
          obtain ⟨x, rfl, hx⟩ := lock_taken hf h0 hl
          simp only [Lbl.by_, Option.some.injEq] at hu
          subst hu
          exact ⟨Nat.lt_of_lt_of_le (hth ht) (hsp (rest := rest) hf), h1,
            Or.inl ⟨x, rest, by simp [applyRes, setTh], hx⟩⟩
        | call => exact absurd rfl no
        | unwind => exact absurd rfl no
        | deliver => exact absurd rfl no
        | interrupt => exact absurd rfl no
        | fork => exact absurd rfl no
        | realFork => exact absurd rfl no
    · cases hu

end Libmonitor.Proc
