import Verif.Names.Spec

/-!
# Names: what is known at each point of the code

A checker (`chk`) follows each function with the set of facts known there: pointers that are filled
in and run-once functions that have been entered.  Facts are never undone, so what is known stays
true whatever other threads do.  `pre` and `post` say what a function needs and what it leaves.
-/

namespace Libmonitor.Names

open Ins Ptr Fn

/-- Things that stay true once they are. -/
inductive Fact where
  | ptr (p : Ptr)
  | did (f : Fn)
  deriving DecidableEq, Repr

/-- The fact is true in the state. -/
def St.fact (s : St) : Fact → Bool
  | .ptr p => s.res p
  | .did f => s.ran f

/-- All the facts are true. -/
def Holds (s : St) (F : List Fact) : Prop := ∀ a ∈ F, s.fact a = true

def ptrs (l : List Ptr) : List Fact := l.map .ptr

/-- What `monitor_thread_name_init` leaves. -/
def names : List Fact := .did nameInit :: ptrs [tCreate, tAttrInit, tAttrDestroy, tAttrGet,
  tAttrSet, tEqual, tKeyNew, tKeyDel, tKill, tSelf, tGet, tSet, tPush, tPop, tCancel, tAction,
  tMask, tWait, tTimed]

def sFacts : List Fact := .did signalInit :: ptrs [sAction, sMask]

def fFacts : List Fact := ptrs [fFork, fExecv, fExecvp, fExecve, fAction, fMask, fSystem]

def nFacts : List Fact := .did normalInit :: ptrs [mUExit, mExit, mStart, mMask] ++ sFacts ++
  fFacts

def dFacts : List Fact := ptrs [dOpen, dClose]

/-- What a function leaves. -/
def post : Fn → List Fact
  | forkInit => fFacts
  | signalInit => sFacts
  | nameInit | listInit | createInit => names
  | normalInit | beginProcess => nFacts
  | dlopenInit => dFacts
  | _ => []

/-- What a function needs. -/
def pre : Fn → List Fact
  | getspec | resetList2 | shootdown2 | shootKill | shootHandler | adjust | attrDefault | attrSet
  | attrDestroy | beginThread | threadRun | broadcast2 | killOne | waitAgain | timedAgain
  | waitHelper | waitFini => names
  | sigHandler | sigFatal | filterMask | filterSet | actionSet => sFacts
  | systemRun | systemChild | systemReal => fFacts
  | createMon => names ++ nFacts
  | monitorMain => [.ptr mMain]
  | _ => []

/-- The facts are among those known. -/
def sub (Q F : List Fact) : Bool := Q.all (fun a => F.contains a)

/-- Follow a function from what is known to what it must leave. -/
def chk (F Q : List Fact) : List Ins → Bool
  | [] => sub Q F
  | .res p :: l => chk (.ptr p :: F) Q l
  | .use p :: l => F.contains (.ptr p) && chk F Q l
  | .call g :: l => sub (pre g) F && chk (post g ++ F) Q l
  | .opt g :: l => sub (pre g) F && chk F Q l
  | .ifUsed g :: l => sub (pre g) (names ++ F) && chk F Q l
  | .ifUnused g :: l => sub (pre g) F && sub names (post g) && chk (names ++ F) Q l
  | .setUsed b :: l => (!b || sub names F) && chk F Q l
  | .setHand :: l => sub names F && chk F Q l
  | .cb :: l => chk F Q l
  | .spawn g :: l => sub (pre g) F && sub [.did normalInit, .did signalInit, .did nameInit] F &&
      decide (kind g = .plain) && chk F Q l

/-- What is known when a function begins. -/
def start (f : Fn) : List Fact := (if kind f = .once then [.did f] else []) ++ pre f

theorem chk_body (f : Fn) : chk (start f) (post f) (body f) = true := by
  cases f <;> decide +kernel

/-- The run-once functions that fill in pointers. -/
def crit : Fn → Bool
  | normalInit | signalInit | nameInit => true
  | _ => false

/-- How deep a function calls; `none` for the ones that are not part of an initialisation. -/
def rank : Fn → Option Nat
  | getspec => some 0
  | getTn => some 1
  | debug => some 2
  | earlyInit => some 3
  | forkInit => some 4
  | signalInit => some 4
  | nameInit => some 4
  | normalInit => some 5
  | _ => none

/-- `g` is part of an initialisation and lies below `f`. -/
def below (g f : Fn) : Prop := ∃ m n, rank g = some m ∧ rank f = some n ∧ m < n

instance (g f : Fn) : Decidable (below g f) :=
  match hg : rank g, hf : rank f with
  | some m, some n => if h : m < n then .isTrue ⟨m, n, hg, hf, h⟩
      else .isFalse (fun ⟨a, b, h1, h2, h3⟩ => by
        rw [hg] at h1; rw [hf] at h2; cases h1; cases h2; exact h h3)
  | none, _ => .isFalse (fun ⟨_, _, h1, _⟩ => by simp_all)
  | some _, none => .isFalse (fun ⟨_, _, _, h1, _⟩ => by simp_all)

/-- The steps of the initialisations. -/
def okIns (f : Fn) : Ins → Bool
  | .res _ | .use _ => true
  | .call g | .opt g | .ifUsed g => decide (below g f)
  | _ => false

theorem init_body (f : Fn) (h : rank f ≠ none) : ∀ i ∈ body f, okIns f i = true := by
  cases f <;> first | (exact absurd rfl h) | decide +kernel

theorem below_trans {f g h : Fn} (h1 : below f g) (h2 : below g h) : below f h := by
  obtain ⟨a, b, e1, e2, l1⟩ := h1
  obtain ⟨c, d, e3, e4, l2⟩ := h2
  rw [e2] at e3
  cases e3
  exact ⟨a, d, e1, e4, Nat.lt_trans l1 l2⟩

theorem below_irrefl {f : Fn} (h : below f f) : False := by
  obtain ⟨a, b, e1, e2, l⟩ := h
  rw [e1] at e2
  cases e2
  exact Nat.lt_irrefl _ l

theorem crit_rank {f : Fn} (h : crit f = true) : rank f ≠ none := by
  revert h; cases f <;> decide

theorem post_once {f : Fn} (h : kind f = .once) (hc : crit f = false) : post f = [] := by
  revert h hc; cases f <;> decide

theorem crit_kind {f : Fn} (h : crit f = true) : kind f = .once := by
  revert h; cases f <;> decide

theorem post_guard {f : Fn} (h : kind f = .guard) : crit f = false := by
  revert h; cases f <;> decide

theorem entry_plain {f : Fn} (h : isEntry f = true) :
    kind f = .plain ∧ pre f = [] ∧ post f = [] := by
  revert h; cases f <;> decide

/-! ## Facts -/

theorem sub_holds {s : St} {Q F : List Fact} (h : sub Q F = true) (hF : Holds s F) : Holds s Q := by
  intro a ha
  have := List.all_eq_true.1 h a ha
  exact hF a (by simpa using this)

theorem holds_nil {s : St} : Holds s [] := by intro a ha; cases ha

theorem holds_app {s : St} {F G : List Fact} (hF : Holds s F) (hG : Holds s G) :
    Holds s (F ++ G) := by
  intro a ha
  rcases List.mem_append.1 ha with ha | ha
  · exact hF a ha
  · exact hG a ha

theorem sub_mono {Q F G : List Fact} (h : sub Q F = true) (hs : ∀ a ∈ F, a ∈ G) :
    sub Q G = true := by
  refine List.all_eq_true.2 (fun a ha => ?_)
  have := List.all_eq_true.1 h a ha
  simp only [List.contains_iff_mem] at this ⊢
  exact hs a this

theorem chk_mono {Q : List Fact} : ∀ {l : List Ins} {F G : List Fact}, chk F Q l = true →
    (∀ a ∈ F, a ∈ G) → chk G Q l = true := by
  intro l
  induction l with
  | nil => intro F G h hs; exact sub_mono h hs
  | cons i l ih =>
    intro F G h hs
    have app : ∀ (X : List Fact), ∀ a ∈ X ++ F, a ∈ X ++ G := by
      intro X a ha
      rcases List.mem_append.1 ha with ha | ha
      · exact List.mem_append_left _ ha
      · exact List.mem_append_right _ (hs a ha)
    cases i <;> simp only [chk, Bool.and_eq_true] at h ⊢
    case res p => exact ih h (app [_])
    case use p =>
      refine ⟨?_, ih h.2 hs⟩
      have := h.1
      simp only [List.contains_iff_mem] at this ⊢
      exact hs _ this
    case call g => exact ⟨sub_mono h.1 hs, ih h.2 (app _)⟩
    case opt g => exact ⟨sub_mono h.1 hs, ih h.2 hs⟩
    case ifUsed g => exact ⟨sub_mono h.1 (app _), ih h.2 hs⟩
    case ifUnused g => exact ⟨⟨sub_mono h.1.1 hs, h.1.2⟩, ih h.2 (app _)⟩
    case setUsed b =>
      refine ⟨?_, ih h.2 hs⟩
      cases b
      · rfl
      · exact sub_mono (by simpa using h.1) hs
    case setHand => exact ⟨sub_mono h.1 hs, ih h.2 hs⟩
    case cb => exact ih h hs
    case spawn g => exact ⟨⟨⟨sub_mono h.1.1.1 hs, sub_mono h.1.1.2 hs⟩, h.1.2⟩, ih h.2 hs⟩

/-- Nothing is undone. -/
def Le (s s' : St) : Prop := ∀ a, s.fact a = true → s'.fact a = true

theorem holds_le {s s' : St} {F : List Fact} (h : Le s s') (hF : Holds s F) : Holds s' F :=
  fun a ha => h a (hF a ha)

/-! ## Stacks -/

/-- Every function on the stack is at a point whose facts are true, the ones left by the function
above it (`R`) being taken for granted. -/
def Valid (s : St) : List Fact → List Fr → Prop
  | _, [] => True
  | _, .out :: k => Valid s [] k
  | R, .lib f l :: k => (∃ F, Holds s F ∧ chk (R ++ F) (post f) l = true) ∧
      (∀ i ∈ l, i ∈ body f) ∧ Valid s (post f) k

theorem valid_le {s s' : St} (h : Le s s') : ∀ {k : List Fr} {R : List Fact}, Valid s R k →
    Valid s' R k := by
  intro k
  induction k with
  | nil => intro R _; trivial
  | cons x k ih =>
    intro R hv
    cases x with
    | out => exact ih hv
    | lib f l =>
      obtain ⟨⟨F, hF, hc⟩, hm, hk⟩ := hv
      exact ⟨⟨F, holds_le h hF, hc⟩, hm, ih hk⟩

/-- More may be taken for granted. -/
theorem valid_more {s : St} {R : List Fact} : ∀ {k : List Fr}, Valid s [] k → Valid s R k := by
  intro k hv
  cases k with
  | nil => trivial
  | cons x k =>
    cases x with
    | out => exact hv
    | lib f l =>
      obtain ⟨⟨F, hF, hc⟩, hm, hk⟩ := hv
      exact ⟨⟨F, hF, chk_mono hc (by simp; intro a ha; exact .inr ha)⟩, hm, hk⟩

/-- What is true need not be taken for granted. -/
theorem valid_less {s : St} {R : List Fact} (hR : Holds s R) : ∀ {k : List Fr}, Valid s R k →
    Valid s [] k := by
  intro k hv
  cases k with
  | nil => trivial
  | cons x k =>
    cases x with
    | out => exact hv
    | lib f l =>
      obtain ⟨⟨F, hF, hc⟩, hm, hk⟩ := hv
      exact ⟨⟨R ++ F, holds_app hR hF, by simpa using hc⟩, hm, hk⟩

theorem valid_drop {s : St} : ∀ {k k' : List Fr} {R : List Fact} {n : Nat}, Valid s R k →
    k.drop n = .out :: k' → Valid s [] (.out :: k') := by
  intro k
  induction k with
  | nil => intro k' R n _ h; simp at h
  | cons x k ih =>
    intro k' R n hv h
    cases n with
    | zero =>
      simp only [List.drop_zero] at h
      rw [h] at hv
      exact hv
    | succ n =>
      simp only [List.drop_succ_cons] at h
      cases x with
      | out => exact ih hv h
      | lib f l => exact ih hv.2.2 h

/-- Above a run-once initialisation there are only functions it calls. -/
def Shape : List Fr → Prop
  | [] => True
  | x :: k => Shape k ∧ ∀ f l, Fr.lib f l ∈ k → crit f = true →
      ∃ g m, x = .lib g m ∧ below g f

theorem shape_drop : ∀ {k : List Fr} (n : Nat), Shape k → Shape (k.drop n) := by
  intro k
  induction k with
  | nil => intro n _; simp [Shape]
  | cons x k ih =>
    intro n h
    cases n with
    | zero => exact h
    | succ n => exact ih n h.1

/-- A stack without initialisations has the shape. -/
theorem shape_of_none : ∀ {k : List Fr}, (∀ f l, Fr.lib f l ∈ k → crit f = false) → Shape k := by
  intro k
  induction k with
  | nil => intro _; trivial
  | cons x k ih =>
    intro h
    refine ⟨ih (fun f l hm => h f l (List.mem_cons_of_mem _ hm)), ?_⟩
    intro f l hm hc
    rw [h f l (List.mem_cons_of_mem _ hm)] at hc
    cases hc

/-- A function not part of an initialisation has none under it. -/
theorem shape_top {f : Fn} {l : List Ins} {k : List Fr} (h : Shape (.lib f l :: k))
    (hr : rank f = none) : ∀ g m, Fr.lib g m ∈ .lib f l :: k → crit g = false := by
  intro g m hm
  cases hc : crit g with
  | false => rfl
  | true =>
    rcases List.mem_cons.1 hm with hm | hm
    · cases hm
      exact absurd hr (crit_rank hc)
    · obtain ⟨g', m', e, hb⟩ := h.2 g m hm hc
      cases e
      obtain ⟨a, b, e1, _⟩ := hb
      rw [hr] at e1
      cases e1

theorem shape_out {k : List Fr} (h : Shape (.out :: k)) :
    ∀ g m, Fr.lib g m ∈ .out :: k → crit g = false := by
  intro g m hm
  cases hc : crit g with
  | false => rfl
  | true =>
    rcases List.mem_cons.1 hm with hm | hm
    · cases hm
    · obtain ⟨g', m', e, _⟩ := h.2 g m hm hc
      cases e

theorem shape_same {f : Fn} {l l' : List Ins} {k : List Fr} (h : Shape (.lib f l :: k)) :
    Shape (.lib f l' :: k) := by
  refine ⟨h.1, ?_⟩
  intro g m hm hc
  obtain ⟨g', m', e, hb⟩ := h.2 g m hm hc
  cases e
  exact ⟨f, l', rfl, hb⟩

/-- Calling a function. -/
theorem shape_push {f g : Fn} {l m : List Ins} {k : List Fr} (h : Shape (.lib f l :: k))
    (hb : rank f ≠ none → below g f) : Shape (.lib g m :: .lib f l :: k) := by
  refine ⟨h, ?_⟩
  intro f' m' hm hc
  refine ⟨g, m, rfl, ?_⟩
  rcases List.mem_cons.1 hm with hm | hm
  · cases hm
    exact hb (crit_rank hc)
  · obtain ⟨g', m'', e, hb'⟩ := h.2 f' m' hm hc
    cases e
    refine below_trans (hb ?_) hb'
    obtain ⟨a, b, e1, _⟩ := hb'
    rw [e1]
    simp

/-- The function called is not being run by the thread, if it is an initialisation. -/
theorem callee_new {f g : Fn} {l m : List Ins} {k : List Fr} (h : Shape (.lib f l :: k))
    (hb : rank f ≠ none → below g f) (hc : crit g = true) : Fr.lib g m ∉ .lib f l :: k := by
  intro hm
  rcases List.mem_cons.1 hm with hm | hm
  · cases hm
    exact below_irrefl (hb (crit_rank hc))
  · obtain ⟨g', m'', e, hb'⟩ := h.2 g m hm hc
    cases e
    refine below_irrefl (below_trans (hb ?_) hb')
    obtain ⟨a, b, e1, _⟩ := hb'
    rw [e1]
    simp

/-! ## The invariant -/

/-- What is true in the executions in which nothing disturbs an initialisation. -/
structure Inv (s : St) : Prop where
  used : s.used = true → Holds s names
  hand : s.hand = true → Holds s names
  ran : ∀ f, s.ran f = true → Holds s (post f) ∨
    (crit f = true ∧ ∃ t l, Fr.lib f l ∈ s.th t)
  valid : ∀ t, Valid s [] (s.th t)
  shape : ∀ t, Shape (s.th t)
  solo : 1 < s.made → ∀ f, crit f = true → s.ran f = true
  only : ∀ t, s.th t ≠ [] → t < s.made
  one : ∀ t f l, Fr.lib f l ∈ s.th t → crit f = true → s.made = 1
  good : s.bad = false

/-- An initialisation in progress is the calling thread's. -/
theorem inv_here {s : St} (h : Inv s) {t u : Nat} {f : Fn} {l : List Ins} (ht : s.th t ≠ [])
    (hm : Fr.lib f l ∈ s.th u) (hc : crit f = true) : u = t := by
  have h1 := h.one u f l hm hc
  have h2 := h.only t ht
  have h3 := h.only u (by intro e; rw [e] at hm; cases hm)
  omega

/-- A step of one thread. -/
theorem inv_mk {s s' : St} {t : Nat} (h : Inv s) (hne : s.th t ≠ []) (hle : Le s s')
    (hu : s'.used = true → s.used = true ∨ Holds s' names)
    (hh : s'.hand = true → s.hand = true ∨ Holds s' names)
    (hran : ∀ f, s'.ran f = true → s.ran f = true ∨ Holds s' (post f) ∨
      (crit f = true ∧ ∃ l, Fr.lib f l ∈ s'.th t))
    (hth : ∀ u, u ≠ t → s'.th u = s.th u) (hv : Valid s' [] (s'.th t)) (hs : Shape (s'.th t))
    (hmade : s'.made = s.made)
    (hnew : ∀ f l, Fr.lib f l ∈ s'.th t → crit f = true →
      (∃ l', Fr.lib f l' ∈ s.th t) ∨ s.ran f = false)
    (hkeep : ∀ f l, Fr.lib f l ∈ s.th t → crit f = true →
      (∃ l', Fr.lib f l' ∈ s'.th t) ∨ Holds s' (post f))
    (hgood : s'.bad = false) : Inv s' := by
  refine ⟨?_, ?_, ?_, ?_, ?_, ?_, ?_, ?_, hgood⟩
  · intro e
    rcases hu e with e | e
    · exact holds_le hle (h.used e)
    · exact e
  · intro e
    rcases hh e with e | e
    · exact holds_le hle (h.hand e)
    · exact e
  · intro f e
    rcases hran f e with e | e | ⟨hc, l, hm⟩
    · rcases h.ran f e with e | ⟨hc, u, l, hm⟩
      · exact .inl (holds_le hle e)
      · have := inv_here h hne hm hc
        subst this
        rcases hkeep f l hm hc with ⟨l', hm'⟩ | hp
        · exact .inr ⟨hc, _, l', hm'⟩
        · exact .inl hp
    · exact .inl e
    · exact .inr ⟨hc, t, l, hm⟩
  · intro u
    by_cases e : u = t
    · rw [e]; exact hv
    · rw [hth u e]; exact valid_le hle (h.valid u)
  · intro u
    by_cases e : u = t
    · rw [e]; exact hs
    · rw [hth u e]; exact h.shape u
  · intro e f hc
    rw [hmade] at e
    exact hle (.did f) (h.solo e f hc)
  · intro u e
    rw [hmade]
    by_cases e' : u = t
    · rw [e']; exact h.only t hne
    · rw [hth u e'] at e; exact h.only u e
  · intro u f l hm hc
    rw [hmade]
    by_cases e : u = t
    · rw [e] at hm
      rcases hnew f l hm hc with ⟨l', hm'⟩ | hr
      · exact h.one t f l' hm' hc
      · have h1 := h.only t hne
        rcases Nat.lt_or_ge 1 s.made with h2 | h2
        · rw [h.solo h2 f hc] at hr; cases hr
        · omega
    · rw [hth u e] at hm
      exact h.one u f l hm hc

theorem le_refl (s : St) : Le s s := fun _ h => h

theorem fact_put {s : St} {t : Nat} {k : List Fr} {a : Fact} : (s.put t k).fact a = s.fact a := by
  cases a <;> rfl

theorem put_th {s : St} {t : Nat} {k : List Fr} : (s.put t k).th t = k := by simp [St.put]

theorem put_ne {s : St} {t u : Nat} {k : List Fr} (h : u ≠ t) : (s.put t k).th u = s.th u := by
  simp [St.put, h]

theorem le_put {s s' : St} {t : Nat} {k : List Fr} (h : Le s s') : Le s (s'.put t k) :=
  fun a ha => by rw [fact_put]; exact h a ha

theorem valid_put {s : St} {t : Nat} {k : List Fr} {R : List Fact} {k' : List Fr}
    (h : Valid s R k') : Valid (s.put t k) R k' := valid_le (le_put (le_refl s)) h

/-- The thread goes on with another stack; nothing else changes. -/
theorem inv_put {s : St} {t : Nat} {k : List Fr} (h : Inv s) (hne : s.th t ≠ [])
    (hv : Valid s [] k) (hs : Shape k)
    (hnew : ∀ f l, Fr.lib f l ∈ k → crit f = true → ∃ l', Fr.lib f l' ∈ s.th t)
    (hkeep : ∀ f l, Fr.lib f l ∈ s.th t → crit f = true →
      (∃ l', Fr.lib f l' ∈ k) ∨ Holds s (post f)) : Inv (s.put t k) := by
  refine inv_mk (t := t) h hne (le_put (le_refl s)) .inl .inl (fun f e => .inl e)
    (fun u e => put_ne e) ?_ ?_ rfl ?_ ?_ h.good
  · rw [put_th]; exact valid_put hv
  · rw [put_th]; exact hs
  · intro f l hm hc
    rw [put_th] at hm
    exact .inl (hnew f l hm hc)
  · intro f l hm hc
    rcases hkeep f l hm hc with hk | hk
    · rw [put_th]; exact .inl hk
    · exact .inr (holds_le (le_put (le_refl s)) hk)

/-- Calling a function from the stack `k`. -/
theorem inv_enter {s : St} {t : Nat} {g : Fn} {k : List Fr} (h : Inv s) (hne : s.th t ≠ [])
    (hp : Holds s (pre g)) (hv : Valid s (post g) k)
    (hs : ∀ m, Shape (.lib g m :: k))
    (hcr : crit g = true → ∀ m, Fr.lib g m ∉ s.th t)
    (hnew : ∀ f l, Fr.lib f l ∈ k → crit f = true → ∃ l', Fr.lib f l' ∈ s.th t)
    (hkeep : ∀ f l, Fr.lib f l ∈ s.th t → crit f = true → ∃ l', Fr.lib f l' ∈ k) :
    Inv (s.enter t g k) := by
  have skip : s.ran g = true → Inv (s.put t k) := by
    intro hr
    have hpost : Holds s (post g) := by
      rcases h.ran g hr with e | ⟨hc, u, l, hm⟩
      · exact e
      · have := inv_here h hne hm hc
        subst this
        exact absurd hm (hcr hc l)
    refine inv_put h hne (valid_less hpost hv) (hs []).1 hnew (fun f l hm hc =>
      .inl (hkeep f l hm hc))
  have run : crit g = false → kind g ≠ .once → Inv (s.put t (.lib g (body g) :: k)) := by
    intro hc hk
    refine inv_put h hne ⟨⟨pre g, hp, ?_⟩, fun i hi => hi, hv⟩ (hs _) ?_ ?_
    · have := chk_body g
      simpa [start, hk] using this
    · intro f l hm hc'
      rcases List.mem_cons.1 hm with hm | hm
      · cases hm
        rw [hc] at hc'
        cases hc'
      · exact hnew f l hm hc'
    · intro f l hm hc'
      obtain ⟨l', hm'⟩ := hkeep f l hm hc'
      exact .inl ⟨l', List.mem_cons_of_mem _ hm'⟩
  unfold St.enter
  cases hk : kind g with
  | plain =>
    refine run ?_ (by rw [hk]; simp)
    cases hc : crit g with
    | false => rfl
    | true => rw [crit_kind hc] at hk; cases hk
  | guard =>
    simp only
    split
    · exact skip ‹_›
    · exact run (post_guard hk) (by rw [hk]; simp)
  | once =>
    simp only
    split
    · exact skip ‹_›
    · rename_i hr
      have hr : s.ran g = false := by simpa using hr
      have hle : Le s (s.mark g) := by
        intro a ha
        cases a with
        | ptr p => exact ha
        | did f =>
          simp only [St.fact, St.mark] at ha ⊢
          split
          · rfl
          · exact ha
      have hdid : (s.mark g).ran g = true := by simp [St.mark]
      refine inv_mk (t := t) h hne (le_put hle) .inl .inl ?_ (fun u e => put_ne e) ?_ ?_ rfl ?_ ?_
        h.good
      · intro f e
        by_cases hfg : f = g
        · subst hfg
          right
          cases hc : crit f with
          | false => left; rw [post_once hk hc]; exact holds_nil
          | true => exact .inr ⟨rfl, body f, by rw [put_th]; simp⟩
        · left
          simpa [St.put, St.mark, hfg] using e
      · rw [put_th]
        refine valid_put ⟨⟨start g, ?_, chk_body g⟩, fun i hi => hi, valid_le hle hv⟩
        unfold start
        rw [if_pos hk]
        refine holds_app ?_ (holds_le hle hp)
        intro a ha
        cases List.mem_singleton.1 ha
        exact hdid
      · rw [put_th]; exact hs _
      · intro f l hm hc
        rw [put_th] at hm
        rcases List.mem_cons.1 hm with hm | hm
        · cases hm; exact .inr hr
        · exact .inl (hnew f l hm hc)
      · intro f l hm hc
        rw [put_th]
        obtain ⟨l', hm'⟩ := hkeep f l hm hc
        exact .inl ⟨l', List.mem_cons_of_mem _ hm'⟩

/-- A new thread, made by a thread that is not inside an initialisation. -/
theorem inv_spawn {s : St} {t : Nat} {g : Fn} (h : Inv s) (hne : s.th t ≠ [])
    (hno : ∀ f l, Fr.lib f l ∈ s.th t → crit f = false) (hk : kind g = .plain)
    (hp : Holds s (pre g)) (hd : ∀ f, crit f = true → s.ran f = true) :
    Inv ({ s with made := s.made + 1 }.put s.made [.lib g (body g)]) := by
  have hnone : ∀ u f l, Fr.lib f l ∈ s.th u → crit f = false := by
    intro u f l hm
    cases hc : crit f with
    | false => rfl
    | true =>
      have := inv_here h hne hm hc
      subst this
      rw [hno f l hm] at hc
      cases hc
  have hgc : crit g = false := by
    cases hc : crit g with
    | false => rfl
    | true => rw [crit_kind hc] at hk; cases hk
  have hle : Le s ({ s with made := s.made + 1 }.put s.made [.lib g (body g)]) := by
    intro a ha
    cases a <;> exact ha
  have hcase : ∀ u, (({ s with made := s.made + 1 } : St).put s.made [.lib g (body g)]).th u =
      if u = s.made then [.lib g (body g)] else s.th u := fun u => rfl
  refine ⟨fun e => holds_le hle (h.used e), fun e => holds_le hle (h.hand e), ?_, ?_, ?_,
    fun _ f hc => hd f hc, ?_, ?_, h.good⟩
  · intro f e
    rcases h.ran f e with e | ⟨hc, u, l, hm⟩
    · exact .inl (holds_le hle e)
    · rw [hnone u f l hm] at hc; cases hc
  · intro u
    rw [hcase]
    split
    · refine ⟨⟨pre g, holds_le hle hp, ?_⟩, fun i hi => hi, trivial⟩
      have := chk_body g
      simpa [start, hk] using this
    · exact valid_le hle (h.valid u)
  · intro u
    rw [hcase]
    split
    · refine ⟨trivial, ?_⟩
      intro f l hm
      cases hm
    · exact h.shape u
  · intro u e
    rw [hcase] at e
    show u < s.made + 1
    split at e
    · omega
    · exact Nat.lt_succ_of_lt (h.only u e)
  · intro u f l hm hc
    rw [hcase] at hm
    split at hm
    · cases List.mem_singleton.1 hm
      rw [hgc] at hc
      cases hc
    · rw [hnone u f l hm] at hc
      cases hc

theorem not_init {s : St} {t : Nat} (h : initialising s t = false) :
    ∀ f l, Fr.lib f l ∈ s.th t → crit f = false := by
  intro f l hm
  have := List.any_eq_false.1 h _ hm
  cases f <;> first | rfl | (exact absurd rfl this)

theorem inv_exec {s : St} {t : Nat} {f : Fn} {i : Ins} {l : List Ins} {k : List Fr} {b : Bool}
    (h : Inv s) (ht : s.th t = .lib f (i :: l) :: k) : Inv (s.exec t f i l k b) := by
  have hne : s.th t ≠ [] := by rw [ht]; simp
  have hv := h.valid t
  have hs := h.shape t
  rw [ht] at hv hs
  obtain ⟨⟨F, hF, hc⟩, hm, hk⟩ := hv
  simp only [List.nil_append] at hc
  have hml : ∀ j ∈ l, j ∈ body f := fun j hj => hm j (List.mem_cons_of_mem _ hj)
  have hi : rank f ≠ none → okIns f i = true := fun hr => init_body f hr i (hm i (by simp))
  have hold : ∀ g m l', Fr.lib g m ∈ .lib f l' :: k → ∃ m', Fr.lib g m' ∈ s.th t := by
    intro g m l' hm
    rw [ht]
    rcases List.mem_cons.1 hm with hm | hm
    · cases hm; exact ⟨_, List.mem_cons_self⟩
    · exact ⟨m, List.mem_cons_of_mem _ hm⟩
  have hkeep : ∀ g m l', Fr.lib g m ∈ s.th t → ∃ m', Fr.lib g m' ∈ .lib f l' :: k := by
    intro g m l' hm
    rw [ht] at hm
    rcases List.mem_cons.1 hm with hm | hm
    · cases hm; exact ⟨_, List.mem_cons_self⟩
    · exact ⟨m, List.mem_cons_of_mem _ hm⟩
  -- going on in the same function
  have stay : chk F (post f) l = true → Inv (s.put t (.lib f l :: k)) := fun hc =>
    inv_put h hne ⟨⟨F, hF, by simpa using hc⟩, hml, hk⟩ (shape_same hs)
      (fun g m hm _ => hold g m l hm) (fun g m hm _ => .inl (hkeep g m l hm))
  -- calling another function
  have enter : ∀ g l', (rank f ≠ none → below g f) → Holds s (pre g) →
      chk (post g ++ F) (post f) l' = true → (∀ j ∈ l', j ∈ body f) →
      Inv (s.enter t g (.lib f l' :: k)) := by
    intro g l' hb hp hc' hm'
    refine inv_enter h hne hp ⟨⟨F, hF, hc'⟩, hm', hk⟩ (fun m => shape_push (shape_same hs) hb) ?_
      (fun g m hm _ => hold g m l' hm) (fun g m hm _ => hkeep g m l' hm)
    intro hcr m
    rw [ht]
    exact callee_new hs hb hcr
  cases i with
  | res p =>
    have hle : Le s (s.fill p) := by
      intro a ha
      cases a with
      | did g => exact ha
      | ptr q =>
        simp only [St.fact, St.fill] at ha ⊢
        split
        · rfl
        · exact ha
    refine inv_mk (t := t) h hne (le_put hle) .inl .inl (fun g e => .inl e) (fun u e => put_ne e)
      ?_ ?_ rfl ?_ ?_ h.good
    · simp only [St.exec]
      rw [put_th]
      refine valid_put ⟨⟨.ptr p :: F, ?_, by simpa [chk] using hc⟩, hml, valid_le hle hk⟩
      intro a ha
      rcases List.mem_cons.1 ha with ha | ha
      · subst ha; simp [St.fact, St.fill]
      · exact hle a (hF a ha)
    · simp only [St.exec]; rw [put_th]; exact shape_same hs
    · simp only [St.exec]; rw [put_th]; exact fun g m hm _ => .inl (hold g m l hm)
    · simp only [St.exec]; rw [put_th]; exact fun g m hm _ => .inl (hkeep g m l hm)
  | use p =>
    simp only [chk, Bool.and_eq_true] at hc
    have hp : s.res p = true := hF (.ptr p) (by simpa using hc.1)
    refine inv_mk (t := t) h hne (le_put (fun a ha => by cases a <;> exact ha)) .inl .inl
      (fun g e => .inl e) (fun u e => put_ne e) ?_ ?_ rfl ?_ ?_ ?_
    · simp only [St.exec]
      rw [put_th]
      exact valid_put (valid_le (s := s) (fun a ha => by cases a <;> exact ha)
        ⟨⟨F, hF, by simpa using hc.2⟩, hml, hk⟩)
    · simp only [St.exec]; rw [put_th]; exact shape_same hs
    · simp only [St.exec]; rw [put_th]; exact fun g m hm _ => .inl (hold g m l hm)
    · simp only [St.exec]; rw [put_th]; exact fun g m hm _ => .inl (hkeep g m l hm)
    · simp [St.exec, St.put, h.good, hp]
  | call g =>
    simp only [chk, Bool.and_eq_true] at hc
    exact enter g l (fun hr => of_decide_eq_true (hi hr)) (sub_holds hc.1 hF) hc.2 hml
  | opt g =>
    have hc0 := hc
    simp only [chk, Bool.and_eq_true] at hc
    simp only [St.exec]
    split
    · exact enter g _ (fun hr => of_decide_eq_true (hi hr)) (sub_holds hc.1 hF)
        (chk_mono hc0 (fun a ha => List.mem_append_right _ ha)) hm
    · exact stay hc.2
  | ifUsed g =>
    simp only [chk, Bool.and_eq_true] at hc
    simp only [St.exec]
    split
    · exact enter g l (fun hr => of_decide_eq_true (hi hr))
        (sub_holds hc.1 (holds_app (h.used ‹_›) hF))
        (chk_mono hc.2 (fun a ha => List.mem_append_right _ ha)) hml
    · exact stay hc.2
  | ifUnused g =>
    simp only [chk, Bool.and_eq_true] at hc
    have hnr : rank f = none := by
      cases hr : rank f with
      | none => rfl
      | some n => exact absurd (hi (by rw [hr]; simp)) (by simp [okIns])
    simp only [St.exec]
    split
    · rename_i hu
      refine inv_put h hne ⟨⟨names ++ F, holds_app (h.used hu) hF, by simpa using hc.2⟩, hml, hk⟩
        (shape_same hs) (fun g m hm _ => hold g m l hm) (fun g m hm _ => .inl (hkeep g m l hm))
    · refine enter g l (fun hr => absurd hnr hr) (sub_holds hc.1.1 hF) ?_ hml
      refine chk_mono hc.2 ?_
      intro a ha
      rcases List.mem_append.1 ha with ha | ha
      · refine List.mem_append_left _ ?_
        have := List.all_eq_true.1 hc.1.2 a ha
        simpa using this
      · exact List.mem_append_right _ ha
  | setUsed b' =>
    simp only [chk, Bool.and_eq_true] at hc
    refine inv_mk (t := t) h hne (le_put (fun a ha => by cases a <;> exact ha)) ?_ .inl
      (fun g e => .inl e) (fun u e => put_ne e) ?_ ?_ rfl ?_ ?_ h.good
    · intro e
      right
      have e : b' = true := e
      subst e
      exact holds_le (s := s) (le_put (fun a ha => by cases a <;> exact ha))
        (sub_holds (by simpa using hc.1) hF)
    · simp only [St.exec]
      rw [put_th]
      exact valid_put (valid_le (s := s) (fun a ha => by cases a <;> exact ha)
        ⟨⟨F, hF, by simpa using hc.2⟩, hml, hk⟩)
    · simp only [St.exec]; rw [put_th]; exact shape_same hs
    · simp only [St.exec]; rw [put_th]; exact fun g m hm _ => .inl (hold g m l hm)
    · simp only [St.exec]; rw [put_th]; exact fun g m hm _ => .inl (hkeep g m l hm)
  | setHand =>
    simp only [chk, Bool.and_eq_true] at hc
    refine inv_mk (t := t) h hne (le_put (fun a ha => by cases a <;> exact ha)) .inl ?_
      (fun g e => .inl e) (fun u e => put_ne e) ?_ ?_ rfl ?_ ?_ h.good
    · intro _
      right
      exact holds_le (s := s) (le_put (fun a ha => by cases a <;> exact ha)) (sub_holds hc.1 hF)
    · simp only [St.exec]
      rw [put_th]
      exact valid_put (valid_le (s := s) (fun a ha => by cases a <;> exact ha)
        ⟨⟨F, hF, by simpa using hc.2⟩, hml, hk⟩)
    · simp only [St.exec]; rw [put_th]; exact shape_same hs
    · simp only [St.exec]; rw [put_th]; exact fun g m hm _ => .inl (hold g m l hm)
    · simp only [St.exec]; rw [put_th]; exact fun g m hm _ => .inl (hkeep g m l hm)
  | cb =>
    have hnr : rank f = none := by
      cases hr : rank f with
      | none => rfl
      | some n => exact absurd (hi (by rw [hr]; simp)) (by simp [okIns])
    have hno := shape_top (shape_same (l' := l) hs) hnr
    refine inv_put h hne ⟨⟨F, hF, by simpa [chk] using hc⟩, hml, hk⟩ ?_ ?_ ?_
    · refine shape_of_none ?_
      intro g m hm
      rcases List.mem_cons.1 hm with hm | hm
      · cases hm
      · exact hno g m hm
    · intro g m hm hcr
      rcases List.mem_cons.1 hm with hm | hm
      · cases hm
      · rw [hno g m hm] at hcr; cases hcr
    · intro g m hm _
      obtain ⟨m', hm'⟩ := hkeep g m l hm
      exact .inl ⟨m', List.mem_cons_of_mem _ hm'⟩
  | spawn g =>
    have hnr : rank f = none := by
      cases hr : rank f with
      | none => rfl
      | some n => exact absurd (hi (by rw [hr]; simp)) (by simp [okIns])
    simp only [chk, Bool.and_eq_true] at hc
    simp only [St.exec]
    split
    · have h' := stay hc.2
      refine inv_spawn (t := t) h' (by rw [put_th]; simp) ?_ (of_decide_eq_true hc.1.2) ?_ ?_
      · rw [put_th]; exact shape_top (shape_same hs) hnr
      · exact holds_le (le_put (le_refl s)) (sub_holds hc.1.1.1 hF)
      · have hd := sub_holds hc.1.1.2 hF
        intro f' hf'
        show s.ran f' = true
        cases f' <;> first | (refine hd (.did _) ?_; simp; done) | cases hf'
    · exact stay hc.2

theorem inv_next {s s' : St} {lb : Lbl} (h : Inv s) (hq : Quiet s lb) (hn : next s lb = some s') :
    Inv s' := by
  cases lb with
  | go t b =>
    simp only [next] at hn
    split at hn
    · rename_i f i l k ht
      cases hn
      exact inv_exec h ht
    · rename_i f k ht
      have hne : s.th t ≠ [] := by rw [ht]; simp
      have hv := h.valid t
      have hs := h.shape t
      rw [ht] at hv hs
      obtain ⟨⟨F, hF, hc⟩, hm, hk⟩ := hv
      have hp : Holds s (post f) := sub_holds (by simpa [chk] using hc) hF
      have hpop : Inv (s.put t k) := by
        refine inv_put h hne (valid_less hp hk) hs.1 ?_ ?_
        · intro g m hm _
          rw [ht]
          exact ⟨m, List.mem_cons_of_mem _ hm⟩
        · intro g m hm _
          rw [ht] at hm
          rcases List.mem_cons.1 hm with hm | hm
          · cases hm; exact .inr hp
          · exact .inl ⟨m, hm⟩
      cases hn
      split
      · rename_i hkd
        have hle : Le s (s.mark f) := by
          intro a ha
          cases a with
          | ptr p => exact ha
          | did g =>
            simp only [St.fact, St.mark] at ha ⊢
            split
            · rfl
            · exact ha
        refine inv_mk (t := t) h hne (le_put hle) .inl .inl ?_ (fun u e => put_ne e) ?_ ?_ rfl ?_ ?_
          h.good
        · intro g e
          by_cases hg : g = f
          · subst hg
            exact .inr (.inl (holds_le (le_put hle) hp))
          · left
            simpa [St.put, St.mark, hg] using e
        · rw [put_th]
          exact valid_put (valid_le hle (valid_less hp hk))
        · rw [put_th]; exact hs.1
        · intro g m hm _
          rw [put_th] at hm
          rw [ht]
          exact .inl ⟨m, List.mem_cons_of_mem _ hm⟩
        · intro g m hm _
          rw [put_th]
          rw [ht] at hm
          rcases List.mem_cons.1 hm with hm | hm
          · cases hm; exact .inr (holds_le (le_put hle) hp)
          · exact .inl ⟨m, hm⟩
      · exact hpop
    · cases hn
  | call t f =>
    simp only [next] at hn
    split at hn
    · rename_i k ht
      split at hn
      · rename_i he
        cases hn
        have hne : s.th t ≠ [] := by rw [ht]; simp
        have hv := h.valid t
        have hs := h.shape t
        rw [ht] at hv hs
        have hno := shape_out hs
        obtain ⟨h1, h2, h3⟩ := entry_plain he
        refine inv_enter h hne (by rw [h2]; exact holds_nil) (by rw [h3]; exact hv) ?_ ?_ ?_ ?_
        · intro m
          refine ⟨hs, ?_⟩
          intro g l hm hc
          rw [hno g l hm] at hc
          cases hc
        · intro hc
          rw [crit_kind hc] at h1
          cases h1
        · intro g l hm _
          exact ⟨l, by rw [ht]; exact hm⟩
        · intro g l hm _
          exact ⟨l, by rw [ht] at hm; exact hm⟩
      · cases hn
    · cases hn
  | ret t =>
    simp only [next] at hn
    split at hn
    · rename_i k ht
      cases hn
      have hv := h.valid t
      have hs := h.shape t
      rw [ht] at hv hs
      refine inv_put h (by rw [ht]; simp) hv hs.1 ?_ ?_
      · intro g l hm _
        exact ⟨l, by rw [ht]; exact List.mem_cons_of_mem _ hm⟩
      · intro g l hm _
        rw [ht] at hm
        rcases List.mem_cons.1 hm with hm | hm
        · cases hm
        · exact .inl ⟨l, hm⟩
    · cases hn
  | interrupt t =>
    have hno := not_init (hq t rfl)
    simp only [next] at hn
    split at hn
    · cases hn
    · rename_i hne
      cases hn
      refine inv_put h hne (h.valid t) ⟨h.shape t, ?_⟩ ?_ ?_
      · intro g l hm hc
        rw [hno g l hm] at hc
        cases hc
      · intro g l hm _
        rcases List.mem_cons.1 hm with hm | hm
        · cases hm
        · exact ⟨l, hm⟩
      · intro g l hm _
        exact .inl ⟨l, List.mem_cons_of_mem _ hm⟩
  | signal t =>
    have hno := not_init (hq t rfl)
    simp only [next] at hn
    split at hn
    · cases hn
    · rename_i hne
      have hne' : s.th t ≠ [] := fun e => hne (.inl e)
      have hr : s.ran signalInit = true := by
        cases e : s.ran signalInit with
        | true => rfl
        | false => exact absurd (.inr e) hne
      cases hn
      have hp : Holds s (post signalInit) := by
        rcases h.ran _ hr with e | ⟨hc, u, l, hm⟩
        · exact e
        · have := inv_here h hne' hm hc
          subst this
          rw [hno _ _ hm] at hc
          cases hc
      refine inv_put h hne' ⟨⟨pre sigHandler, hp, chk_body sigHandler⟩, fun i hi => hi,
        h.valid t⟩ ⟨h.shape t, ?_⟩ ?_ ?_
      · intro g l hm hc
        rw [hno g l hm] at hc
        cases hc
      · intro g l hm hc
        rcases List.mem_cons.1 hm with hm | hm
        · cases hm; cases hc
        · exact ⟨l, hm⟩
      · intro g l hm _
        exact .inl ⟨l, List.mem_cons_of_mem _ hm⟩
  | shoot t =>
    have hno := not_init (hq t rfl)
    simp only [next] at hn
    split at hn
    · cases hn
    · rename_i hne
      have hne' : s.th t ≠ [] := fun e => hne (.inl e)
      have hr : s.hand = true := by
        cases e : s.hand with
        | true => rfl
        | false => exact absurd (.inr e) hne
      cases hn
      refine inv_put h hne' ⟨⟨pre shootHandler, h.hand hr, chk_body shootHandler⟩,
        fun i hi => hi, h.valid t⟩ ⟨h.shape t, ?_⟩ ?_ ?_
      · intro g l hm hc
        rw [hno g l hm] at hc
        cases hc
      · intro g l hm hc
        rcases List.mem_cons.1 hm with hm | hm
        · cases hm; cases hc
        · exact ⟨l, hm⟩
      · intro g l hm _
        exact .inl ⟨l, List.mem_cons_of_mem _ hm⟩
  | unwind t n =>
    have hno := not_init (hq t rfl)
    simp only [next] at hn
    split at hn
    · rename_i k hd
      cases hn
      have hmem : ∀ x ∈ Fr.out :: k, x ∈ s.th t := by
        rw [← hd]
        exact fun x hx => List.mem_of_mem_drop hx
      have hne : s.th t ≠ [] := by
        intro e
        rw [e] at hd
        simp at hd
      refine inv_put h hne (valid_drop (h.valid t) hd) (by rw [← hd]; exact shape_drop n (h.shape t))
        ?_ ?_
      · intro g l hm hc
        rw [hno g l (hmem _ hm)] at hc
        cases hc
      · intro g l hm hc
        rw [hno g l hm] at hc
        cases hc
    · cases hn
  | die t b =>
    have hno := not_init (hq t rfl)
    simp only [next] at hn
    split at hn
    · cases hn
    · rename_i hne
      cases hn
      refine inv_put h hne ?_ ?_ ?_ ?_
      · cases b
        · trivial
        · exact ⟨⟨[], holds_nil, chk_body cleanup⟩, fun i hi => hi, trivial⟩
      · refine shape_of_none ?_
        intro f l hm
        cases b
        · cases hm
        · cases List.mem_singleton.1 hm; rfl
      · intro f l hm hc
        cases b
        · cases hm
        · cases List.mem_singleton.1 hm; cases hc
      · intro g l hm hc
        rw [hno g l hm] at hc
        cases hc
  | fallback t =>
    have hno := not_init (hq t rfl)
    simp only [next] at hn
    split at hn
    · rename_i f p l k ht
      split at hn
      · cases hn
      · cases hn
        have hv := h.valid t
        have hs := h.shape t
        rw [ht] at hv hs hno
        refine inv_put h (by rw [ht]; simp) ⟨⟨[], holds_nil, chk_body dlopenW⟩, fun i hi => hi, hv⟩
          ⟨hs, ?_⟩ ?_ ?_
        · intro g l hm hc
          rw [hno g l hm] at hc
          cases hc
        · intro g l hm hc
          rcases List.mem_cons.1 hm with hm | hm
          · cases hm; cases hc
          · exact ⟨l, by rw [ht]; exact hm⟩
        · intro g l hm _
          rw [ht] at hm
          exact .inl ⟨l, List.mem_cons_of_mem _ hm⟩
    · cases hn
  | fork t =>
    simp only [next] at hn
    split at hn
    · cases hn
    · rename_i hne
      cases hn
      have hth : ∀ u, (if u = t then s.th t else []) = s.th u ∨
          (if u = t then s.th t else ([] : List Fr)) = [] := by
        intro u
        by_cases e : u = t
        · left; rw [if_pos e, e]
        · right; rw [if_neg e]
      have hle : Le s { s with th := fun u => if u = t then s.th t else [] } := by
        intro a ha
        cases a <;> exact ha
      refine ⟨fun e => holds_le hle (h.used e), fun e => holds_le hle (h.hand e), ?_, ?_, ?_,
        h.solo, ?_, ?_, h.good⟩
      · intro f e
        rcases h.ran f e with e | ⟨hc, u, l, hm⟩
        · exact .inl (holds_le hle e)
        · have := inv_here h hne hm hc
          subst this
          exact .inr ⟨hc, u, l, by simpa using hm⟩
      · intro u
        show Valid _ [] (if u = t then s.th t else [])
        rcases hth u with e | e
        · rw [e]; exact valid_le hle (h.valid u)
        · rw [e]; trivial
      · intro u
        show Shape (if u = t then s.th t else [])
        rcases hth u with e | e
        · rw [e]; exact h.shape u
        · rw [e]; trivial
      · intro u e
        have e : (if u = t then s.th t else []) ≠ [] := e
        rcases hth u with e' | e'
        · rw [e'] at e; exact h.only u e
        · exact absurd e' e
      · intro u f l hm hc
        have hm : Fr.lib f l ∈ (if u = t then s.th t else []) := hm
        rcases hth u with e' | e'
        · rw [e'] at hm; exact h.one u f l hm hc
        · rw [e'] at hm; cases hm

theorem inv_init : Inv {} := by
  have hth : ∀ t, ({} : St).th t = [.out] ∨ ({} : St).th t = [] := by
    intro t
    by_cases e : t = 0
    · left; simp [e]
    · right; simp [e]
  have hno : ∀ t f l, Fr.lib f l ∉ ({} : St).th t := by
    intro t f l hm
    rcases hth t with e | e <;> rw [e] at hm
    · cases List.mem_singleton.1 hm
    · cases hm
  refine ⟨by simp, by simp, by simp, ?_, ?_, by simp, ?_, fun t f l hm => absurd hm (hno t f l),
    rfl⟩
  · intro t
    rcases hth t with e | e <;> rw [e] <;> trivial
  · intro t
    rcases hth t with e | e <;> rw [e]
    · exact ⟨trivial, fun f l hm => by cases hm⟩
    · trivial
  · intro t e
    by_cases e' : t = 0
    · simp [e']
    · simp [e'] at e

theorem inv_reach {s : St} (h : ReachA Quiet s) : Inv s := by
  induction h with
  | init => exact inv_init
  | step _ hq hn ih => exact inv_next ih hq hn

end Libmonitor.Names
