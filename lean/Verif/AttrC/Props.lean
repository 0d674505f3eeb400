import Verif.AttrC.Share

/-!
# Attributes of new threads in several threads: C79, C80

C79: each call of pthread_create does its own script, its local object is its own, and only the size of
the application's objects is ever touched.
C80: objects that are used by one call at a time are left as they were, and the new thread gets the
client's size.
-/

namespace Libmonitor.AttrC

open Attr (Obj)

/-! ## Concrete executions -/

def run (s : S) : List Lbl → Option S
  | [] => some s
  | l :: r => (next s l).bind fun s => run s r

/-- Every label of the execution is allowed. -/
def allowed (A : S → Lbl → Bool) (s : S) : List Lbl → Bool
  | [] => true
  | l :: r => A s l && match next s l with
    | some s => allowed A s r
    | none => false

theorem reach_any {s : S} {d0 : Nat} (hs : Reach d0 s) {ls : List Lbl} {P : S → Bool}
    (h : (run s ls).any P = true) : ∃ s', Reach d0 s' ∧ P s' = true := by
  induction ls generalizing s with
  | nil => simp only [run, Option.any_some] at h; exact ⟨s, hs, h⟩
  | cons l r ih =>
    simp only [run] at h
    cases hn : next s l with
    | none => rw [hn] at h; simp at h
    | some s' => rw [hn] at h; exact ih (.next hs trivial hn) (by simpa using h)

theorem reach_state {s s' : S} {d0 : Nat} (hs : Reach d0 s) {ls : List Lbl} (h : run s ls = some s') :
    Reach d0 s' := by
  induction ls generalizing s with
  | nil => simp only [run, Option.some.injEq] at h; exact h ▸ hs
  | cons l r ih =>
    simp only [run] at h
    cases hn : next s l with
    | none => rw [hn] at h; simp at h
    | some s1 => rw [hn] at h; exact ih (.next hs trivial hn) h

/-- Thread `t` goes on; what is called succeeds, and the client answers `n`. -/
def go (t : Tid) (n : Nat := 0) : Lbl := .step t true n

/-- Thread `t` calls pthread_create with object `a`; the client asks for `n`; before the real call. -/
def begin_ (t : Tid) (a : Option Id) (n : Nat) : List Lbl :=
  [.create t a, .step t false 0] ++ (if a = none then [go t] else []) ++ [go t, go t n, go t]

/-- ... and the rest. -/
def finish (t : Tid) : List Lbl := [go t, go t, go t]

/-- Object 7 is made, with size 100. -/
def setup : List Lbl := [.use 0 (.init 7), .use 0 (.size 7 100)]

/-- No thread is in a call. -/
def quiet (s : S) : Bool := (List.range s.nextC).all fun c => !s.running c

/-! ## C79 -/

/-- C79, in all executions: every call does its script, as far as it goes: whatever other calls do with
the same object, it reads the size, asks the client about that size, sets the client's answer, calls the real
function, and sets the size that it has read; without an object it does so with its own, which has the
client's size and nothing else when the real function gets it, and which is destroyed exactly once if it
was made. -/
theorem C79_script {d0 : Nat} {s : S} (hs : Reach d0 s) (c : Call) :
    ∃ rest, Script c (ofCall c s.tr ++ rest) := told_prefix ((inv_of hs).told c)

/-- C79: and a call that has returned has done all of it. -/
theorem C79_complete {d0 : Nat} {s : S} (hs : Reach d0 s) {c : Call} {r : Nat} (h : .ret c r ∈ s.tr) :
    Script c (ofCall c s.tr) := (inv_of hs).ret c r h

/-- What follows for counting: the call has called the real function once, and got its result; its own
object was made at most once, and destroyed as often. -/
theorem C79_counts {c : Call} {l : List Ev} (h : Script c l) :
    (∃ p o r, l.filter (fun e => e matches .create ..) = [.create c p o r] ∧
      l.filter (fun e => e matches .ret ..) = [.ret c r]) ∧
    l.count (.init c true) = l.count (.destroy c) ∧ l.count (.destroy c) ≤ 1 := by
  have adj : ∀ p l r, Adjust c p l r → l.filter (fun e => e matches .create ..) = [] ∧
      l.filter (fun e => e matches .ret ..) = [] ∧ l.count (.init c true) = 0 ∧ l.count (.destroy c) = 0 := by
    intro p l r h
    cases h <;> exact ⟨rfl, rfl, by simp, by simp⟩
  cases h with
  | ignored a o r => exact ⟨⟨_, o, r, rfl, rfl⟩, by simp, by simp⟩
  | kept a l o r h =>
    obtain ⟨h1, h2, h3, h4⟩ := adj _ _ _ h
    exact ⟨⟨.app a, o, r, by simp [h1], by simp [h2]⟩, by simp [h3, h4], by simp [h4]⟩
  | changed a l old new o r ok h =>
    obtain ⟨h1, h2, h3, h4⟩ := adj _ _ _ h
    exact ⟨⟨.app a, o, r, by simp [h1], by simp [h2]⟩, by simp [h3, h4], by simp [h4]⟩
  | noInit r => exact ⟨⟨_, _, r, rfl, rfl⟩, by simp, by simp⟩
  | plain l r h =>
    obtain ⟨h1, h2, h3, h4⟩ := adj _ _ _ h
    exact ⟨⟨.null, none, r, by simp [h1], by simp [h2]⟩, by simp [h3, h4], by simp [h4]⟩
  | own l old new r h =>
    obtain ⟨h1, h2, h3, h4⟩ := adj _ _ _ h
    exact ⟨⟨.dflt, some { size := some new }, r, by simp [h1], by simp [h2]⟩, by simp [h3, h4], by simp [h4]⟩

/-- C79, in all executions: the library makes and destroys none of the application's objects, and touches
nothing in them but the size. -/
theorem C79_only_size {d0 : Nat} {s : S} (hs : Reach d0 s) (a : Id) :
    (s.obj a).map (·.top) = (wish a s.tr).map (·.top) := shape_inv hs a

/-- C79, in all executions: the library uses no object that is not initialised, unless it is the
application's and the application has not initialised it or has destroyed it. -/
theorem C79_initialised {d0 : Nat} {s : S} (hs : Reach d0 s) :
    Always (fun old e => ∀ c p, e = .ub c p → ∃ a, p = .app a ∧ wish a old = none) s.tr := by
  induction hs with
  | init => trivial
  | @next s s' l hs _ hn ih =>
    have hi := inv_of hs
    have hi' := inv_step hi hn
    have hcons : ∀ e, (∀ c p, e ≠ .ub c p) →
        Always (fun old e => ∀ c p, e = .ub c p → ∃ a, p = .app a ∧ wish a old = none) (e :: s.tr) :=
      fun e he => ⟨fun c p h => absurd h (he c p), ih⟩
    unfold next at hn
    split at hn
    · simp at hn
    cases l with
    | step t ok n =>
      simp only at hn
      split at hn
      · rename_i c rest he
        have ht := hi.told c
        have hm := cmove_of hn (by
          intro v d r hp
          rw [hp] at ht
          obtain ⟨b, _, _, _, hb, _⟩ := ht
          simp [hb])
        revert hm
        generalize s.pc c = p
        intro hm
        cases hm with
        | pre => exact ih
        | direct ho => exact ⟨fun c p h => by simp at h, hcons _ (by simp)⟩
        | set ho => rw [goto_tr, resize_tr]; exact hcons _ (by simp)
        | noSet ho => rw [goto_tr, resize_tr]; exact hcons _ (by simp)
        | restore ho => rw [goto_tr, resize_tr]; exact hcons _ (by simp)
        | @crash ok n p q h1 h2 h3 =>
          refine ⟨fun c' p' h => ?_, ih⟩
          simp only [Ev.ub.injEq] at h
          obtain ⟨rfl, rfl⟩ := h
          obtain ⟨a, rfl⟩ := hi'.ub c q (by simp [S.crash])
          refine ⟨a, rfl, ?_⟩
          have := shape_inv hs a
          simp only [S.cell] at h1
          rw [h1] at this
          cases hw : wish a s.tr
          · rfl
          · rw [hw] at this; simp at this
        | _ => exact hcons _ (by simp)
      · simp at hn
    | create t b =>
      simp only at hn
      split at hn
      · simp only [Option.some.injEq] at hn; subst hn; exact hcons _ (by simp)
      · simp at hn
    | use t u =>
      simp only at hn
      split at hn
      · simp only [Option.some.injEq] at hn; subst hn
        rw [(@log_use s u).2.2.2.2.1]; exact hcons _ (by simp)
      · simp at hn
    | fork t =>
      simp only at hn
      split at hn
      · simp only [Option.some.injEq] at hn; subst hn; exact hcons _ (by simp)
      · simp at hn
    | out t => simp only [Option.some.injEq] at hn; subst hn; exact ih
    | back t =>
      simp only at hn
      split at hn
      · simp only [Option.some.injEq] at hn; subst hn; exact ih
      · simp at hn
    | unwind t =>
      simp only at hn
      split at hn
      · simp only [Option.some.injEq] at hn; subst hn; exact ih
      · simp only [Option.some.injEq] at hn; subst hn; exact ih
      · simp at hn

/-- Two threads create threads at the same time, one with object 7 and one without; both have returned. -/
example : ∃ s, Reach 1000 s ∧ decide (quiet s = true ∧
    ofCall 0 s.tr = [.enter 0 (some 7), .get 0 (.app 7) true, .ask 0 100 300, .set 0 (.app 7) 300 true,
      .create 0 (.app 7) (some { size := some 300 }) 0, .set 0 (.app 7) 100 true, .ret 0 0] ∧
    ofCall 1 s.tr = [.enter 1 none, .init 1 true, .get 1 .dflt true, .ask 1 1000 50, .set 1 .dflt 50 true,
      .create 1 .dflt (some { size := some 50 }) 0, .destroy 1, .ret 1 0]) = true :=
  reach_any .init (ls := setup ++ begin_ 0 (some 7) 300 ++ begin_ 1 none 50 ++ finish 0 ++ finish 1)
    (by decide)

/-- An object that was destroyed is used. -/
example : ∃ s, Reach 1000 s ∧ decide (.ub 0 (.app 7) ∈ s.tr) = true :=
  reach_any .init (ls := setup ++ [.create 0 (some 7), .use 1 (.drop 7), .step 0 false 0, go 0]) (by decide)

/-- A frame that is left by longjmp leaves the local object behind. -/
theorem C79_leaked : ∃ s, Reach 1000 s ∧
    decide (s.th 0 = [] ∧ .init 0 true ∈ s.tr ∧ .destroy 0 ∉ s.tr ∧ s.pc 0 = .gone) = true :=
  reach_any .init (ls := begin_ 0 none 50 ++ [.out 0, .unwind 0, .unwind 0]) (by decide)

/-! ## C80 -/

/-- C80: an object that is used by one call at a time is as the application wants it whenever no call is
using it.

Missing: overlapping calls (`C80_grows`), changes of the object during a call (`C80_change_lost`), frames
left by longjmp (`C80_unwound`), forks by other threads during a call (`C80_forked`), failure of the last
setstacksize (`C21_restore_failure_violates`).  Objects without a size get the default of
some moment (`C21_default_frozen`). -/
theorem C80_restored_partial {d0 : Nat} {a : Id} {s : S} (hs : ReachA (OneAtATime a) d0 s) (hb : ¬ Busy a s) :
    match wish a s.tr, s.obj a with
    | none, o => o = none
    | some w, o => ∃ x, o = some x ∧ AsWished d0 s.tr w x := by
  have h := (shared_inv (fun _ _ h => h) hs).clean fun c hc hca => absurd ⟨c, hc, hca⟩ hb
  rcases h with ⟨h1, h2⟩ | ⟨w, o, h1, h2, h3⟩
  · rw [h1]; exact h2
  · rw [h1]; exact ⟨o, h2, h3⟩

/-- C80: objects whose size the application has set are exactly the same afterwards. -/
theorem C80_same_partial {d0 : Nat} {a : Id} {s : S} (hs : ReachA (OneAtATime a) d0 s) (hb : ¬ Busy a s)
    {w : Obj} {n : Nat} (hw : wish a s.tr = some w) (hn : w.size = some n) : s.obj a = some w := by
  have h := C80_restored_partial hs hb
  rw [hw] at h
  obtain ⟨x, h1, h2 | ⟨h2, _⟩⟩ := h
  · rw [h1, h2]
  · rw [hn] at h2; simp at h2

/-- What the real pthread_create gets from call `c` with object `a`: the object as the application
wants it; but if the call has set the client's size, then with that size, which is the client's answer
to the size in the object. -/
def Gets (d0 : Nat) (a : Id) (old : List Ev) (c : Call) (o : Option Obj) : Prop :=
  ∃ w x, wish a old = some w ∧ AsWished d0 old w x ∧
    ((o = some x ∧ ∀ n, .set c (.app a) n true ∉ old) ∨
      ∃ v n, o = some { x with size := some n } ∧ .ask c v n ∈ old ∧ .set c (.app a) n true ∈ old ∧
        (x.size = some v ∨ x.size = none ∧ WasDefault d0 old v))

theorem gets_step {d0 : Nat} {a : Id} {s : S} (hs : ReachA (OneAtATime a) d0 s) {c : Call} {r : Option Nat}
    {p : Ptr} {d : Bool} {o : Option Obj} (hp : s.pc c = .direct ∨ s.pc c = .create p r d)
    (ha : s.att c = some a) (ho : s.obj a = o) (hne : o ≠ none) : Gets d0 a s.tr c o := by
  have hS := shared_inv (fun _ _ h => h) hs
  have ht := (inv_of hs).told c
  have hrun : s.running c = true := by rcases hp with h | h <;> simp [S.running, h]
  have clean : restores (s.pc c) = none → (∀ n, .set c (.app a) n true ∉ s.tr) → Gets d0 a s.tr c o := by
    intro hr hno
    have := hS.clean fun e he hea => by rw [hS.uniq e c he hea hrun ha]; exact hr
    rcases this with ⟨_, h2⟩ | ⟨w, x, h1, h2, h3⟩
    · rw [ho] at h2; exact absurd h2 hne
    · exact ⟨w, x, h1, h3, .inl ⟨ho ▸ h2, hno⟩⟩
  have hmem : ∀ n, .set c (.app a) n true ∈ s.tr ↔ .set c (.app a) n true ∈ ofCall c s.tr :=
    fun n => (mem_ofCall rfl).symm
  rcases hp with hp | hp
  · rw [hp] at ht
    refine clean (by rw [hp]; rfl) fun n hn => ?_
    rw [hmem, ht] at hn; simp at hn
  · cases r with
    | some v =>
      obtain ⟨w, x, n, h1, h2, h3, h4, h5, h6⟩ := hS.dirty c v ha (by rw [hp]; rfl)
      exact ⟨w, x, h1, h2, .inr ⟨v, n, ho ▸ h4, h5, h6, h3⟩⟩
    | none =>
      rw [hp, ha] at ht
      simp only [Told] at ht
      refine clean (by rw [hp]; rfl) fun n hn => ?_
      rw [hmem] at hn
      rcases ht with ⟨h, _⟩ | ⟨adj, hadj, hl, _⟩ | ⟨_, _, _, _, _, _, h, _⟩
      · simp at h
      · rw [hl] at hn
        cases hadj <;> simp [head] at hn
      · simp at h

/-- C80: what the new thread gets, with an object that is used by one call at a time.

Missing: as for `C80_restored_partial`. -/
theorem C80_gets_partial {d0 : Nat} {a : Id} {s : S} (hs : ReachA (OneAtATime a) d0 s) :
    Always (fun old e => ∀ c o r, e = .create c (.app a) o r → Gets d0 a old c o) s.tr := by
  induction hs with
  | init => trivial
  | @next s s' l hs ha hn ih =>
    have hi := inv_of hs
    have hcons : ∀ e, (∀ c o r, e ≠ .create c (.app a) o r) →
        Always (fun old e => ∀ c o r, e = .create c (.app a) o r → Gets d0 a old c o) (e :: s.tr) :=
      fun e he => ⟨fun c o r h => absurd h (he c o r), ih⟩
    unfold next at hn
    split at hn
    · simp at hn
    cases l with
    | step t ok n =>
      simp only at hn
      split at hn
      · rename_i c rest he
        have ht := hi.told c
        have hm := cmove_of hn (by
          intro v d r hp
          rw [hp] at ht
          obtain ⟨b, _, _, _, hb, _⟩ := ht
          simp [hb])
        have horig : ∀ x, orig x = .app a → x = some a := by intro x; cases x <;> simp [orig]
        have htar : ∀ x, target x = .app a → x = some a := by intro x; cases x <;> simp [target]
        generalize hp : s.pc c = p at hm
        cases hm with
        | pre => exact ih
        | @direct ok n o ho =>
          refine ⟨fun c o r h => by simp at h, fun c' o' r' h => ?_, ih⟩
          simp only [Ev.create.injEq] at h
          obtain ⟨rfl, h2, rfl, rfl⟩ := h
          rw [h2] at ho
          simp only [reduceCtorEq, false_and, ne_eq, not_false_eq_true, true_and, false_or, S.cell] at ho
          exact gets_step hs (r := none) (p := .null) (d := true) (.inl hp) (horig _ h2) ho.2 ho.1
        | @create ok n p r d o ho =>
          refine ⟨fun c' o' r' h => ?_, ih⟩
          simp only [Ev.create.injEq] at h
          obtain ⟨rfl, rfl, rfl, rfl⟩ := h
          simp only [reduceCtorEq, false_and, ne_eq, not_false_eq_true, true_and, false_or, S.cell] at ho
          have hatt : s.att c = some a := by
            rw [hp] at ht
            rcases ht with ⟨_, h, _⟩ | ⟨_, _, _, h, _⟩ | ⟨_, _, _, _, _, h, _⟩
            · simp at h
            · exact horig _ h.symm
            · exact htar _ h.symm
          exact gets_step hs (.inr hp) hatt ho.2 ho.1
        | set ho => rw [goto_tr, resize_tr]; exact hcons _ (by simp)
        | noSet ho => rw [goto_tr, resize_tr]; exact hcons _ (by simp)
        | restore ho => rw [goto_tr, resize_tr]; exact hcons _ (by simp)
        | _ => exact hcons _ (by simp)
      · simp at hn
    | create t b =>
      simp only at hn
      split at hn
      · simp only [Option.some.injEq] at hn; subst hn; exact hcons _ (by simp)
      · simp at hn
    | use t u =>
      simp only at hn
      split at hn
      · simp only [Option.some.injEq] at hn; subst hn
        rw [(@log_use s u).2.2.2.2.1]; exact hcons _ (by simp)
      · simp at hn
    | fork t =>
      simp only at hn
      split at hn
      · simp only [Option.some.injEq] at hn; subst hn; exact hcons _ (by simp)
      · simp at hn
    | out t => simp only [Option.some.injEq] at hn; subst hn; exact ih
    | back t =>
      simp only at hn
      split at hn
      · simp only [Option.some.injEq] at hn; subst hn; exact ih
      · simp at hn
    | unwind t =>
      simp only at hn
      split at hn
      · simp only [Option.some.injEq] at hn; subst hn; exact ih
      · simp only [Option.some.injEq] at hn; subst hn; exact ih
      · simp at hn

/-- `OneAtATime`, as a test for executions in which all calls are known. -/
def oneB (a : Id) (s : S) (l : Lbl) : Bool :=
  let busy := (List.range s.nextC).any fun c => s.running c && s.att c == some a
  match l with
  | .create _ (some b) => b != a || !busy
  | .use _ u => u.about != some a || !busy
  | .unwind _ => false
  | .fork _ => !busy
  | .step _ ok _ => ok || (List.range s.nextC).all fun c => match s.pc c with
    | .restore _ _ _ => false
    | _ => true
  | _ => true

theorem one_of {A : S → Lbl → Prop} {d0 : Nat} {a : Id} {s : S} {l : Lbl} (hs : ReachA A d0 s)
    (h : oneB a s l = true) : OneAtATime a s l := by
  have hlt : ∀ c, s.running c = true → c < s.nextC := by
    intro c hc
    refine Nat.lt_of_not_le fun h' => ?_
    simp [S.running, (inv_of hs).fresh c h'] at hc
  have hbusy : (List.range s.nextC).any (fun c => s.running c && s.att c == some a) = false → ¬ Busy a s := by
    rintro hb ⟨c, hc, hca⟩
    have := List.any_eq_false.mp hb c (List.mem_range.mpr (hlt c hc))
    simp [hc, hca] at this
  cases l with
  | create t b =>
    cases b with
    | none => trivial
    | some b =>
      rintro rfl
      simp only [oneB, bne_self_eq_false, Bool.false_or, Bool.not_eq_true'] at h
      exact hbusy h
  | use t u =>
    intro hu
    simp only [oneB, hu, bne_self_eq_false, Bool.false_or, Bool.not_eq_true'] at h
    exact hbusy h
  | unwind t => simp [oneB] at h
  | fork t =>
    intro c hc hca
    simp only [oneB, Bool.not_eq_true'] at h
    exact absurd ⟨c, hc, hca⟩ (hbusy h)
  | step t ok n =>
    intro c rest old d r _ _ hp
    simp only [oneB, Bool.or_eq_true] at h
    refine h.resolve_right fun h => ?_
    have := List.all_eq_true.mp h c (List.mem_range.mpr (hlt c (by simp [S.running, hp])))
    simp [hp] at this
  | out t => trivial
  | back t => trivial

theorem reach_one {a : Id} {d0 : Nat} {s : S} (hs : ReachA (OneAtATime a) d0 s) : ∀ {ls : List Lbl} {P : S → Bool},
    (allowed (oneB a) s ls && (run s ls).any P) = true → ∃ s', ReachA (OneAtATime a) d0 s' ∧ P s' = true := by
  intro ls
  induction ls generalizing s with
  | nil => intro P h; simp only [allowed, run, Bool.true_and, Option.any_some] at h; exact ⟨s, hs, h⟩
  | cons l r ih =>
    intro P h
    simp only [allowed, run, Bool.and_eq_true] at h
    cases hn : next s l with
    | none => rw [hn] at h; simp at h
    | some s' =>
      rw [hn] at h
      simp only [Option.bind_some] at h
      exact ih (.next hs (one_of hs h.1.1) hn) (by simp [h.1.2, h.2])

/-- Object 7 is used by one call at a time, while object 8 is used by two; a handler of another thread
forks when no call with object 7 is running.  Afterwards object 7 is as before, and object 8 is not. -/
example : ∃ s, ReachA (OneAtATime 7) 1000 s ∧ decide (quiet s = true ∧
    s.obj 7 = some { size := some 100 } ∧ wish 7 s.tr = some { size := some 100 } ∧
    .create 0 (.app 7) (some { size := some 300 }) 0 ∈ s.tr ∧
    .create 3 (.app 7) (some { size := some 400 }) 0 ∈ s.tr ∧
    s.obj 8 = some { size := some 70 } ∧ wish 8 s.tr = some { size := some 60 }) = true :=
  reach_one .init (ls := setup ++ [.use 1 (.init 8), .use 1 (.size 8 60)] ++
      begin_ 0 (some 7) 300 ++ begin_ 1 (some 8) 70 ++ [.create 2 (some 8), .step 2 false 0, go 2, go 2 80] ++
      finish 1 ++ [go 2] ++ finish 2 ++ finish 0 ++ [.out 1, .fork 1, .back 1] ++
      begin_ 1 (some 7) 400 ++ finish 1) (by decide)

/-- C80 fails if the application changes the object while a call is using it: the new size is lost. -/
theorem C80_change_lost : ∃ s, Reach 1000 s ∧ decide (quiet s = true ∧
    s.obj 7 = some { size := some 100 } ∧ wish 7 s.tr = some { size := some 500 }) = true :=
  reach_any .init (ls := setup ++ begin_ 0 (some 7) 300 ++ [.use 1 (.size 7 500)] ++ finish 0) (by decide)

/-- C80 fails if a call is left by longjmp from a signal handler: the client's size stays. -/
theorem C80_unwound : ∃ s, Reach 1000 s ∧ decide (quiet s = true ∧ s.th 0 = [] ∧
    s.obj 7 = some { size := some 300 } ∧ wish 7 s.tr = some { size := some 100 }) = true :=
  reach_any .init (ls := setup ++ begin_ 0 (some 7) 300 ++ [.out 0, .unwind 0, .unwind 0]) (by decide)

/-- C80 fails in a child that is made by another thread while a call is using the object: the client's
size stays. -/
theorem C80_forked : ∃ s, Reach 1000 s ∧ decide (quiet s = true ∧
    s.obj 7 = some { size := some 300 } ∧ wish 7 s.tr = some { size := some 100 }) = true :=
  reach_any .init (ls := setup ++ begin_ 0 (some 7) 300 ++ [.fork 1]) (by decide)

/-- Two overlapping calls by threads 0 and 1; the client doubles the size. -/
def overlap (x : Nat) : List Lbl :=
  begin_ 0 (some 7) (2 * x) ++ [.create 1 (some 7), .step 1 false 0, go 1, go 1 (4 * x)] ++ finish 0 ++
    [go 1] ++ finish 1

/-- Between calls, object 7 has size `x`, and the application wants 100. -/
structure Between (s : S) (x : Nat) : Prop where
  alive : s.dead = false
  th0 : s.th 0 = []
  th1 : s.th 1 = []
  obj : s.obj 7 = some { size := some x }
  wish : wish 7 s.tr = some { size := some 100 }
  quiet : ∀ c, s.running c = false

theorem overlap_doubles {s : S} {x : Nat} (h : Between s x) (hx : 0 < x) :
    ∃ s', run s (overlap x) = some s' ∧ Between s' (2 * x) := by
  have h1 := h.alive
  have h2 := h.th0
  have h3 := h.th1
  have h4 := h.obj
  have e1 : ¬ 2 * x = x := by omega
  have e2 : ¬ 4 * x = 2 * x := by omega
  refine ⟨_, by
    simp [overlap, begin_, finish, go, run, next, cstep, outside, S.real, S.cell, target, orig, S.resize,
      S.put, S.putApp, S.goto, S.setTh, S.log, afterReal, cleanup, Obj.stackSize, h1, h2, h3, h4, e1, e2]
    rfl, ?_⟩
  refine ⟨rfl, by simp, by simp, by simp, by simpa [AttrC.wish] using h.wish, fun c => ?_⟩
  have hc := h.quiet c
  by_cases k1 : c = s.nextC
  · simp [S.running, k1]
  · by_cases k2 : c = s.nextC + 1
    · simp [S.running, k2]
    · simpa [S.running, k1, k2] using hc

/-- C80 fails if two threads use one object at the same time, and it gets worse and worse: the comment in
pthread.c:1142-1147 says that the size is restored so that it does not keep increasing, but it does.  The
application wants 100, the client doubles what it is asked about, and after `n` pairs of overlapping calls
have returned the object has 100 · 2ⁿ. -/
theorem C80_grows (n : Nat) : ∃ s, Reach 1000 s ∧ (∀ c, s.running c = false) ∧
    s.obj 7 = some { size := some (100 * 2 ^ n) } ∧ wish 7 s.tr = some { size := some 100 } := by
  have h : ∃ s, Reach 1000 s ∧ Between s (100 * 2 ^ n) := by
    induction n with
    | zero =>
      obtain ⟨s, h1, h2⟩ : ∃ s, run { dflt := 1000 } setup = some s ∧ Between s 100 :=
        ⟨_, rfl, rfl, rfl, rfl, rfl, rfl, fun c => rfl⟩
      exact ⟨s, reach_state .init h1, h2⟩
    | succ n ih =>
      obtain ⟨s, hs, hb⟩ := ih
      obtain ⟨s', h1, h2⟩ := overlap_doubles hb (Nat.mul_pos (by decide) (Nat.pow_pos (by decide)))
      exact ⟨s', reach_state hs h1, by rw [Nat.pow_succ, ← Nat.mul_assoc, Nat.mul_comm]; exact h2⟩
  obtain ⟨s, hs, hb⟩ := h
  exact ⟨s, hs, hb.quiet, hb.obj, hb.wish⟩

end Libmonitor.AttrC
