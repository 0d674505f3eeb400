import Verif.Proc.SpecCancel
import Verif.Proc.Block
/-!
# The invariant behind the statements about cancellation
-/

namespace Libmonitor.Proc

/-- The steps of `nextC`, as a relation. -/
inductive MoveC (x : SC) : LblC → SC → Prop
  | go {t : Tid} {f : Frame} {rest : List Frame} {ok : Bool} {v : Nat} {g' : G} {nx : Next}
      {sp : Option Frame} (ht : x.s.th t = f :: rest)
      (hf : fstep x.s.g t ok v f = some (g', nx, sp)) :
      MoveC x (.lib (.step t (.go ok v)))
        { s := applyRes x.s t rest (g', nx, sp), c := setC x.c t (csStep (x.c t) f nx) }
  | unwind {t : Tid} {f : Frame} {rest : List Frame} (ht : x.s.th t = f :: rest) :
      MoveC x (.lib (.step t .unwind))
        { s := { x.s with th := setTh x.s.th t (unwound (f :: rest)) },
          c := setC x.c t (x.c t).endThread }
  | push {l : Lbl} {t : Tid} {f : Frame} {rest pre : List Frame} (ht : x.s.th t = f :: rest)
      (hp : pre.countP Frame.guarded = 0) :
      MoveC x (.lib l) { s := { x.s with th := setTh x.s.th t (pre ++ f :: rest) }, c := x.c }
  | fork {t : Tid} {f : Frame} {rest pre : List Frame} {g' : G} (ht : x.s.th t = f :: rest)
      (hf : f.guarded = false) (hp : pre.countP Frame.guarded = 0)
      (hg : g'.nextTid = x.s.g.nextTid) :
      MoveC x (.lib (.fork t)) { s := { g := g', th := setTh (fun _ => []) t (pre ++ rest) }, c := x.c }
  | set {t : Tid} {f : Frame} {rest : List Frame} (b : Bool) (ht : x.s.th t = f :: rest) :
      MoveC x (.set t b) { x with c := setC x.c t { x.c t with off := b } }
  | cancel {t : Tid} {f : Frame} {rest : List Frame} (ht : x.s.th t = f :: rest)
      (ho : (x.c t).off = false) (he : (x.c t).ending = false) :
      MoveC x (.cancel t)
        { s := { x.s with th := setTh x.s.th t (unwound (f :: rest)) },
          c := setC x.c t (x.c t).endThread }

theorem api_guarded (a : Api) : a.frames.countP Frame.guarded = 0 := by
  cases a <;> try rfl
  rename_i c; cases c <;> rfl

theorem moveC_of_next {x x' : SC} {l : LblC} (h : nextC x l = some x') : MoveC x l x' := by
  cases l with
  | set t b =>
    simp only [nextC] at h
    split at h
    · rename_i f rest ht
      split at h
      · injection h with h; subst h; exact .set b ht
      · cases h
    · cases h
  | cancel t =>
    simp only [nextC] at h
    split at h
    · rename_i hc
      injection h with h; subst h
      cases ht : x.s.th t with
      | nil => exact absurd ht hc.1
      | cons f rest => exact .cancel ht hc.2.1 hc.2.2.1
    · cases h
  | lib l =>
    have map : ∀ {o : Option S} {k : S → SC}, o.map k = some x' → ∃ s', o = some s' ∧ k s' = x' := by
      intro o k h
      cases o with
      | none => cases h
      | some s' => exact ⟨s', rfl, by injection h⟩
    cases l with
    | fork t =>
      obtain ⟨s', hn, rfl⟩ := map h
      have hm := move_of_next hn
      cases hm with
      | fork hd ht => exact .fork (pre := [_, _]) ht rfl rfl rfl
      | realFork hd ht => exact .fork (pre := [_]) ht rfl rfl rfl
    | step t i =>
      cases i with
      | go ok v =>
        simp only [nextC] at h
        split at h
        · cases h
        · rename_i f rest ht
          split at h
          · rename_i s' g' nx sp hn hf
            injection h with h; subst h
            have hm := move_of_next hn
            cases hm with
            | @go _ f' rest' _ _ r hd ht' hf' =>
              rw [ht] at ht'
              injection ht' with e1 e2
              subst e1; subst e2
              rw [hf] at hf'
              injection hf' with e; subst e
              exact .go ht hf
          · cases h
      | unwind =>
        obtain ⟨s', hn, rfl⟩ := map h
        have hm := move_of_next hn
        cases hm with
        | unwind hd ht hf => exact .unwind ht
      | call a =>
        obtain ⟨s', hn, rfl⟩ := map h
        have hm := move_of_next hn
        cases hm with
        | call a hd ht hf => exact .push ht (api_guarded a)
      | deliver =>
        obtain ⟨s', hn, rfl⟩ := map h
        have hm := move_of_next hn
        cases hm with
        | deliver hd ht hon hh => exact .push (pre := [_]) ht rfl
      | interrupt =>
        obtain ⟨s', hn, rfl⟩ := map h
        have hm := move_of_next hn
        cases hm with
        | interrupt hd ht => exact .push (pre := [_]) ht rfl

/-- Beginning or end of a guarded call, or neither. -/
theorem csStep_cases {g g' : G} {t : Tid} {ok : Bool} {v : Nat} {f : Frame} {l : List Frame}
    {sp : Option Frame} (h : fstep g t ok v f = some (g', .go l, sp)) (c : CS) :
    (f.guarded = false ∧ l.countP Frame.guarded = 1 ∧ csStep c f (.go l) = c.enter) ∨
    (f.guarded = true ∧ l = [] ∧ csStep c f (.go l) = c.leave) ∨
    (f.guarded = true ∧ (∃ f', l = [f'] ∧ f'.guarded = true) ∧ csStep c f (.go l) = c) ∨
    (f.guarded = false ∧ l.countP Frame.guarded = 0 ∧ csStep c f (.go l) = c) := by
  by_cases hc : ∃ n src tid, f = .finCb n src tid
  · obtain ⟨n, src, tid, e⟩ := hc
    subst e
    cases src <;> fstep_cases h <;> first
      | exact Or.inr (Or.inl ⟨rfl, rfl, rfl⟩)
      | exact Or.inr (Or.inr (Or.inr ⟨rfl, rfl, rfl⟩))
      | (rename_i h; exact absurd rfl h)
      | (rename_i h; cases h)
  · by_cases hf : ∃ n src, f = .fin0 n src
    · obtain ⟨n, src, e⟩ := hf
      subst e
      cases src <;> fstep_cases h <;> first
        | exact Or.inr (Or.inr (Or.inl ⟨rfl, ⟨_, rfl, rfl⟩, rfl⟩))
        | exact Or.inr (Or.inr (Or.inr ⟨rfl, rfl, rfl⟩))
    · cases f <;> first
        | exact absurd ⟨_, _, _, rfl⟩ hc
        | exact absurd ⟨_, _, rfl⟩ hf
        | (fstep_cases h <;> first
            | exact Or.inr (Or.inr (Or.inr ⟨rfl, rfl, rfl⟩))
            | exact Or.inr (Or.inr (Or.inl ⟨rfl, ⟨_, rfl, rfl⟩, rfl⟩))
            | exact Or.inr (Or.inl ⟨rfl, rfl, rfl⟩)
            | exact Or.inl ⟨rfl, rfl, rfl⟩)

theorem spawn_unguarded {g g' : G} {t : Tid} {ok : Bool} {v : Nat} {f f0 : Frame} {nx : Next}
    (h : fstep g t ok v f = some (g', nx, some f0)) : f0.guarded = false := by
  cases f <;> fstep_cases h <;> rfl

/-- The saved states, from the innermost call: all but the last are "disabled". -/
def SavedOk (a : Bool) : Bool → List Bool → Prop
  | off, [] => off = a
  | off, b :: r => off = true ∧ SavedOk a b r

/-- The invariant for a thread. -/
def CI (l : List Frame) (c : CS) (a : Bool) : Prop :=
  ∃ b, SavedOk b c.off c.saved ∧ (c.ending = false → b = a) ∧
    c.saved.length = l.countP Frame.guarded

theorem unwound_guarded (l : List Frame) : (unwound l).countP Frame.guarded = 0 := by
  unfold unwound
  split <;> rfl

theorem ci_end (l : List Frame) (c : CS) (a : Bool) : CI (unwound l) c.endThread a :=
  ⟨c.off, rfl, (fun h => by cases h), (unwound_guarded l).symm⟩

theorem ci_start {c : CS} {l : List Frame} (hc : c = {}) (hl : l.countP Frame.guarded = 0) :
    CI l c false := by
  subst hc; exact ⟨false, rfl, (fun _ => rfl), hl.symm⟩

theorem ci_same {l l' : List Frame} {c : CS} {a : Bool} (h : CI l c a)
    (e : l'.countP Frame.guarded = l.countP Frame.guarded) : CI l' c a := by
  obtain ⟨b, h1, h2, h3⟩ := h
  exact ⟨b, h1, h2, h3.trans e.symm⟩

theorem ci_enter {l l' : List Frame} {c : CS} {a : Bool} (h : CI l c a)
    (e : l'.countP Frame.guarded = l.countP Frame.guarded + 1) : CI l' c.enter a := by
  obtain ⟨b, h1, h2, h3⟩ := h
  refine ⟨b, ⟨rfl, h1⟩, h2, ?_⟩
  rw [e, ← h3]; rfl

theorem ci_leave {l l' : List Frame} {c : CS} {a : Bool} (h : CI l c a)
    (e : l.countP Frame.guarded = l'.countP Frame.guarded + 1) : CI l' c.leave a := by
  obtain ⟨b, h1, h2, h3⟩ := h
  rw [e] at h3
  obtain ⟨off, en, saved⟩ := c
  cases saved with
  | nil => cases h3
  | cons b' r => exact ⟨b, h1.2, h2, Nat.succ.inj h3⟩

/-- The invariant: unused identifiers are untouched; in each thread the saved states belong to the
guarded calls. -/
structure CInv (x : SC) (a : Tid → Bool) : Prop where
  fresh : ∀ t, x.s.g.nextTid ≤ t → x.s.th t = [] ∧ x.c t = {} ∧ a t = false
  ci : ∀ t, x.s.th t ≠ [] → CI (x.s.th t) (x.c t) (a t)

theorem setC_self (c : Tid → CS) (t : Tid) (y : CS) : setC c t y t = y := if_pos rfl

theorem setC_ne (c : Tid → CS) {t u : Tid} (y : CS) (h : u ≠ t) : setC c t y u = c u := if_neg h

theorem cinv_here {x : SC} {a : Tid → Bool} (h : CInv x a) {t : Tid} {f : Frame}
    {rest : List Frame} (ht : x.s.th t = f :: rest) :
    ¬ x.s.g.nextTid ≤ t ∧ CI (f :: rest) (x.c t) (a t) := by
  refine ⟨?_, ?_⟩
  · intro hle
    rw [(h.fresh t hle).1] at ht; cases ht
  · have := h.ci t (by rw [ht]; exact List.cons_ne_nil _ _)
    rwa [ht] at this

/-- Only the stack and the state of thread `t` change. -/
theorem cinv_one {x : SC} {a : Tid → Bool} (h : CInv x a) {t : Tid} {f : Frame}
    {rest l : List Frame} {y : CS} (ht : x.s.th t = f :: rest) (hy : CI l y (a t)) :
    CInv { s := { x.s with th := setTh x.s.th t l }, c := setC x.c t y } a := by
  have hlt := (cinv_here h ht).1
  refine ⟨?_, ?_⟩
  · intro u hu
    have hne : u ≠ t := fun e => hlt (e ▸ hu)
    show setTh x.s.th t l u = [] ∧ setC x.c t y u = {} ∧ a u = false
    rw [setTh_ne _ _ hne, setC_ne _ _ hne]
    exact h.fresh u hu
  · intro u hu
    by_cases e : u = t
    · subst e
      show CI (setTh x.s.th u l u) (setC x.c u y u) (a u)
      rw [setTh_self, setC_self]; exact hy
    · have hu' : setTh x.s.th t l u ≠ [] := hu
      show CI (setTh x.s.th t l u) (setC x.c t y u) (a u)
      rw [setTh_ne _ _ e] at hu' ⊢
      rw [setC_ne _ _ e]
      exact h.ci u hu'

theorem setC_same (c : Tid → CS) (t : Tid) : setC c t (c t) = c := by
  funext u
  unfold setC
  split
  · rename_i e; rw [e]
  · rfl

theorem cinv {x : SC} {a : Tid → Bool} {A : SC → LblC → Prop} (hA : ∀ x l, A x l → Settled x l)
    (hx : ReachQ A x a) : CInv x a := by
  induction hx with
  | init =>
    refine ⟨?_, ?_⟩
    · intro t ht
      have : (1 : Nat) ≤ t := ht
      refine ⟨?_, rfl, rfl⟩
      show (if t = 0 then [Frame.start] else []) = []
      rw [if_neg (by omega)]
    · intro t ht
      refine ci_start rfl ?_
      show (if t = 0 then [Frame.start] else []).countP Frame.guarded = 0
      split <;> rfl
  | @next x x' a l hr hAl hn ih =>
    have hS := hA _ _ hAl
    have hm := moveC_of_next hn
    cases hm with
    | @unwind t f rest ht => exact cinv_one ih ht (ci_end _ _ _)
    | @cancel t f rest ht ho he => exact cinv_one ih ht (ci_end _ _ _)
    | @push l t f rest pre ht hp =>
      have := cinv_one (l := pre ++ f :: rest) (y := x.c t) ih ht
        (ci_same (cinv_here ih ht).2 (by rw [List.countP_append, hp, Nat.zero_add]))
      rw [setC_same] at this
      exact this
    | @fork t f rest pre g' ht hf hp hg =>
      have hlt := (cinv_here ih ht).1
      refine ⟨?_, ?_⟩
      · intro u hu
        have hu : g'.nextTid ≤ u := hu
        rw [hg] at hu
        have hne : u ≠ t := fun e => hlt (e ▸ hu)
        exact ⟨setTh_ne (fun _ => []) (pre ++ rest) hne, (ih.fresh u hu).2⟩
      · intro u hu
        by_cases e : u = t
        · subst e
          show CI (setTh (fun _ => []) u (pre ++ rest) u) (x.c u) (a u)
          rw [setTh_self]
          refine ci_same (cinv_here ih ht).2 ?_
          rw [List.countP_append, hp, Nat.zero_add, List.countP_cons_of_neg (by simp [hf])]
        · exact absurd (setTh_ne (fun _ => []) (pre ++ rest) e) hu
    | @set t f rest b ht =>
      have hno : (f :: rest).countP Frame.guarded = 0 := by
        rw [List.countP_eq_zero]
        intro f' hf'
        have := hS f' (by rw [ht]; exact hf')
        simp [this]
      obtain ⟨hlt, b0, h1, h2, h3⟩ := cinv_here ih ht
      rw [hno] at h3
      have hnil := List.length_eq_zero_iff.1 h3
      have hset : ∀ u, askedC (.set t b) a u = if u = t then b else a u := fun _ => rfl
      refine ⟨?_, ?_⟩
      · intro u hu
        have hne : u ≠ t := fun e => hlt (e ▸ hu)
        show x.s.th u = [] ∧ setC x.c t _ u = {} ∧ askedC (.set t b) a u = false
        rw [setC_ne _ _ hne, hset, if_neg hne]
        exact ih.fresh u hu
      · intro u hu
        show CI (x.s.th u) (setC x.c t _ u) (askedC (.set t b) a u)
        rw [hset]
        by_cases e : u = t
        · subst e
          rw [setC_self, if_pos rfl, ht]
          refine ⟨b, ?_, (fun _ => rfl), ?_⟩
          · show SavedOk b b (x.c u).saved
            rw [hnil]; rfl
          · show (x.c u).saved.length = _
            rw [hno, hnil]; rfl
        · rw [setC_ne _ _ e, if_neg e]
          exact ih.ci u hu
    | @go t f rest ok v g' nx sp ht hf =>
      obtain ⟨hlt, hci⟩ := cinv_here ih ht
      have hstack : ∀ l, nx = .go l → CI (l ++ rest) (csStep (x.c t) f nx) (a t) := by
        intro l e
        subst e
        have hcons : (f :: rest).countP Frame.guarded =
            rest.countP Frame.guarded + if f.guarded = true then 1 else 0 := List.countP_cons
        rcases csStep_cases hf (x.c t) with ⟨h1, h2, h3⟩ | ⟨h1, h2, h3⟩ | ⟨h1, ⟨f', h2, h2'⟩, h3⟩ |
          ⟨h1, h2, h3⟩ <;> rw [h3]
        · refine ci_enter hci ?_
          rw [List.countP_append, h2, hcons, h1]; simp; omega
        · subst h2
          refine ci_leave hci ?_
          rw [hcons, h1]; rfl
        · subst h2
          refine ci_same hci ?_
          rw [hcons, h1, List.singleton_append, List.countP_cons, h2']
        · refine ci_same hci ?_
          rw [List.countP_append, h2, hcons, h1]; simp
      have hnt : x.s.g.nextTid ≤ (applyRes x.s t rest (g', nx, sp)).g.nextTid := by
        have : (applyRes x.s t rest (g', nx, sp)).g.nextTid = g'.nextTid := by
          rw [applyRes_g]; split <;> rfl
        rw [this]
        rcases fstep_spawn hf with ⟨_, h⟩ | ⟨_, _, _, h, _⟩ <;> omega
      have hne : t ≠ x.s.g.nextTid := fun e => hlt (by omega)
      refine ⟨?_, ?_⟩
      · intro u hu
        have hu : (applyRes x.s t rest (g', nx, sp)).g.nextTid ≤ u := hu
        have hu' : x.s.g.nextTid ≤ u := by omega
        have hut : u ≠ t := fun e => hlt (e ▸ hu')
        show (applyRes x.s t rest (g', nx, sp)).th u = [] ∧ setC x.c t _ u = {} ∧ a u = false
        rw [setC_ne _ _ hut]
        refine ⟨?_, (ih.fresh u hu').2⟩
        rcases applyRes_elsewhere (s := x.s) (rest := rest) (g := g') (nx := nx) (sp := sp) hut with
          h | ⟨e, f0, hsp, _⟩
        · rw [h]; exact (ih.fresh u hu').1
        · exfalso
          have : (applyRes x.s t rest (g', nx, sp)).g.nextTid = g'.nextTid := by
            rw [applyRes_g]; split <;> rfl
          rw [this] at hu
          rcases fstep_spawn hf with ⟨h, _⟩ | ⟨_, _, _, h, _⟩
          · rw [h] at hsp; cases hsp
          · omega
      · intro u hu
        show CI ((applyRes x.s t rest (g', nx, sp)).th u) (setC x.c t _ u) (a u)
        have hu : (applyRes x.s t rest (g', nx, sp)).th u ≠ [] := hu
        by_cases e : u = t
        · subst e
          rw [setC_self]
          rcases applyRes_same (s := x.s) (rest := rest) (g := g') (nx := nx) (sp := sp) hne with
            ⟨l, hl, h⟩ | ⟨hl, h⟩ | ⟨hl, h⟩ <;> rw [h]
          · exact hstack l hl
          · subst hl
            have : csStep (x.c u) f .unwind = (x.c u).endThread := by
              cases f <;> try rfl
              rename_i n src tid; cases src <;> rfl
            rw [this]; exact ci_end _ _ _
          · subst hl
            have : csStep (x.c u) f .die = x.c u := by
              cases f <;> try rfl
              rename_i n src tid; cases src <;> rfl
            rw [this, ht]; exact hci
        · rw [setC_ne _ _ e]
          rcases applyRes_elsewhere (s := x.s) (rest := rest) (g := g') (nx := nx) (sp := sp) e with
            h | ⟨e', f0, hsp, h⟩
          · rw [h] at hu ⊢; exact ih.ci u hu
          · have hfr := ih.fresh u (by omega)
            rw [h, hfr.2.2]
            refine ci_start hfr.2.1 ?_
            subst hsp
            rw [List.countP_cons, spawn_unguarded hf]; rfl

theorem good_off {a off : Bool} {l : List Bool} (h : SavedOk a off l) (hl : l ≠ []) : off = true := by
  cases l with
  | nil => exact absurd rfl hl
  | cons b r => exact h.1

theorem reachQ_of {A : SC → LblC → Prop} {x : SC} (h : ReachC A x) : ∃ a, ReachQ A x a := by
  induction h with
  | init => exact ⟨_, .init⟩
  | next hr hA hn ih =>
    obtain ⟨a, ha⟩ := ih
    exact ⟨_, .next ha hA hn⟩

theorem reachC_of {A : SC → LblC → Prop} {x : SC} {a : Tid → Bool} (h : ReachQ A x a) :
    ReachC A x := by
  induction h with
  | init => exact .init
  | next hr hA hn ih => exact .next ih hA hn

theorem reachC_mono {A B : SC → LblC → Prop} (hAB : ∀ x l, A x l → B x l) {x : SC}
    (h : ReachC A x) : ReachC B x := by
  induction h with
  | init => exact .init
  | next hr hA hn ih => exact .next ih (hAB _ _ hA) hn

theorem reachQ_run {A : SC → LblC → Prop} [∀ x l, Decidable (A x l)] {x x' : SC}
    {a a' : Tid → Bool} {ls : List LblC} (hx : ReachQ A x a) (h : runQ A x a ls = some (x', a')) :
    ReachQ A x' a' := by
  induction ls generalizing x a with
  | nil => injection h with h; injection h with h1 h2; subst h1; subst h2; exact hx
  | cons l ls ih =>
    simp only [runQ] at h
    split at h
    · rename_i hA
      cases hn : nextC x l with
      | none => rw [hn] at h; cases h
      | some y => rw [hn] at h; exact ih (.next hx hA hn) h
    · cases h

theorem exists_of_runQ {A : SC → LblC → Prop} [∀ x l, Decidable (A x l)]
    {ls : List LblC} {p : SC → (Tid → Bool) → Bool}
    (h : ((runQ A {} (fun _ => false) ls).map (fun y => p y.1 y.2)).getD false = true) :
    ∃ x a, ReachQ A x a ∧ p x a = true := by
  cases hr : runQ A {} (fun _ => false) ls with
  | none => rw [hr] at h; exact absurd h (by simp)
  | some y =>
    rw [hr] at h
    exact ⟨y.1, y.2, reachQ_run .init hr, by simpa using h⟩

/-- Nobody can end the wait. -/
theorem waitsNobody {x : SC} (hx : ReachC Settled x) {t : Tid}
    (h : ∀ u, u < x.s.g.nextTid → ∀ f ∈ x.s.th u, f.inLock = false ∧ f.inFini = none)
    (hE : (x.s.th t).head?.any Frame.isEpWait = true →
      ∀ u, u < x.s.g.nextTid → ∀ f ∈ x.s.th u, f.inEnd = false) :
    ∀ u, ¬ waitsFor x.s t u := by
  obtain ⟨a, ha⟩ := reachQ_of hx
  have hI := cinv (fun _ _ h => h) ha
  have key : ∀ {u : Tid} {p : Frame → Bool},
      (u < x.s.g.nextTid → ∀ f ∈ x.s.th u, p f = false) → inStack x.s u p → False := by
    intro u p hp ⟨f, hf, hpf⟩
    by_cases hu : u < x.s.g.nextTid
    · rw [hp hu f hf] at hpf; cases hpf
    · rw [(hI.fresh u (Nat.le_of_not_lt hu)).1] at hf; cases hf
  intro u hw
  cases hw with
  | lock ht hl hu => exact key (fun hlt f hf => (h u hlt f hf).1) hu
  | exit ht hd hu =>
    obtain ⟨f0, hf0, hfe⟩ := ht
    refine key (fun hlt f hf => hE ?_ u hlt f hf) hu
    rw [show (x.s.th t).head? = some f0 from hf0]
    exact hfe
  | fini ht n hn hawait hu =>
    refine key (fun hlt f hf => ?_) hu
    rw [(h u hlt f hf).2]
    rfl

/-- One round of the loop of pthread.c:568-618, for a list with one record that is not finished. -/
def InLoop (n : NodeId) (f : Frame) : Prop :=
  f = .sdScan none [n] 0 0 ∨ f = .sdScan2 none n [] 0 0 ∨ f = .sdScan none [] 1 0

theorem pollsOn {t : Tid} {n : NodeId} {rest : List Frame} (w : List (Bool × Nat)) :
    ∀ {s : S} {f : Frame}, s.th t = f :: rest → InLoop n f → s.g.dead = false → s.g.list = [n] →
      awaited s.g t n = true → ∃ s', runG s t w = some s' ∧ top s' t Frame.polls := by
  induction w with
  | nil =>
    intro s f ht hf hd hl ha
    refine ⟨s, rfl, f, by rw [ht]; rfl, ?_⟩
    rcases hf with e | e | e <;> subst e <;> rfl
  | cons a w ih =>
    obtain ⟨ok, v⟩ := a
    intro s f ht hf hd hl ha
    have h := ha
    simp only [awaited, Bool.and_eq_true, decide_eq_true_eq, Bool.not_eq_true'] at h
    obtain ⟨⟨⟨h1, h2⟩, h3⟩, h4⟩ := h
    have hstep : ∃ f', InLoop n f' ∧ fstep s.g t ok v f = some (s.g, .go [f'], none) := by
      rcases hf with e | e | e <;> subst e
      · refine ⟨.sdScan2 none n [] 0 0, Or.inr (Or.inl rfl), ?_⟩
        simp [fstep, cont, h1, h2, h3]
      · refine ⟨.sdScan none [] 1 0, Or.inr (Or.inr rfl), ?_⟩
        simp [fstep, cont, h4]
      · refine ⟨.sdScan none [n] 0 0, Or.inl rfl, ?_⟩
        simp [fstep, cont, hl]
    obtain ⟨f', hf', hs⟩ := hstep
    have hn : next s (.step t (.go ok v)) = some { s with th := setTh s.th t (f' :: rest) } := by
      simp only [next, step, hd, ht, hs]
      rfl
    obtain ⟨s', hr, htop⟩ := ih (s := { s with th := setTh s.th t (f' :: rest) }) (f := f')
      (setTh_self _ _ _) hf' hd hl ha
    refine ⟨s', ?_, htop⟩
    show (next s (.step t (.go ok v))).bind _ = some s'
    rw [hn]
    exact hr

end Libmonitor.Proc
