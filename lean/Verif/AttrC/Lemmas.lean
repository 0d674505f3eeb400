import Verif.AttrC.Spec

/-!
# Invariants for C79
-/

namespace Libmonitor.AttrC

open Attr (Obj)

theorem weaken {A B : S → Lbl → Prop} (h : ∀ s l, A s l → B s l) {d0 : Nat} {s : S}
    (hs : ReachA A d0 s) : ReachA B d0 s := by
  induction hs with
  | init => exact .init
  | next _ ha hn ih => exact .next ih (h _ _ ha) hn

theorem ofCall_cons {c : Call} {e : Ev} {tr : List Ev} :
    ofCall c (e :: tr) = if e.call = some c then ofCall c tr ++ [e] else ofCall c tr := by
  by_cases h : e.call = some c <;> simp [ofCall, h]

theorem mem_ofCall {c : Call} {e : Ev} {tr : List Ev} (h : e.call = some c) :
    e ∈ ofCall c tr ↔ e ∈ tr := by
  simp [ofCall, h]

/-! ### Simple facts about the state -/

section
variable {s : S} {c d : Call} {t u : Tid} {e : Ev} {p : Pc} {q : Ptr} {o : Obj} {n : Nat} {ok : Bool}

@[simp] theorem log_tr : (s.log e).tr = e :: s.tr := rfl
@[simp] theorem log_pc : (s.log e).pc = s.pc := rfl
@[simp] theorem log_att : (s.log e).att = s.att := rfl
@[simp] theorem log_loc : (s.log e).loc = s.loc := rfl
@[simp] theorem log_obj : (s.log e).obj = s.obj := rfl
@[simp] theorem log_th : (s.log e).th = s.th := rfl
@[simp] theorem log_dflt : (s.log e).dflt = s.dflt := rfl
@[simp] theorem log_nextC : (s.log e).nextC = s.nextC := rfl
@[simp] theorem goto_tr : (s.goto c p).tr = s.tr := rfl
@[simp] theorem goto_att : (s.goto c p).att = s.att := rfl
@[simp] theorem goto_loc : (s.goto c p).loc = s.loc := rfl
@[simp] theorem goto_obj : (s.goto c p).obj = s.obj := rfl
@[simp] theorem goto_th : (s.goto c p).th = s.th := rfl
@[simp] theorem goto_dflt : (s.goto c p).dflt = s.dflt := rfl
@[simp] theorem goto_nextC : (s.goto c p).nextC = s.nextC := rfl
@[simp] theorem goto_pc : (s.goto c p).pc d = if d = c then p else s.pc d := rfl
@[simp] theorem setTh_tr {l} : (s.setTh t l).tr = s.tr := rfl
@[simp] theorem setTh_att {l} : (s.setTh t l).att = s.att := rfl
@[simp] theorem setTh_loc {l} : (s.setTh t l).loc = s.loc := rfl
@[simp] theorem setTh_obj {l} : (s.setTh t l).obj = s.obj := rfl
@[simp] theorem setTh_pc {l} : (s.setTh t l).pc = s.pc := rfl
@[simp] theorem setTh_dflt {l} : (s.setTh t l).dflt = s.dflt := rfl
@[simp] theorem setTh_nextC {l} : (s.setTh t l).nextC = s.nextC := rfl
@[simp] theorem putLoc_tr {o} : (s.putLoc c o).tr = s.tr := rfl
@[simp] theorem putLoc_att {o} : (s.putLoc c o).att = s.att := rfl
@[simp] theorem putLoc_pc {o} : (s.putLoc c o).pc = s.pc := rfl
@[simp] theorem putLoc_obj {o} : (s.putLoc c o).obj = s.obj := rfl
@[simp] theorem putLoc_th {o} : (s.putLoc c o).th = s.th := rfl
@[simp] theorem putLoc_dflt {o} : (s.putLoc c o).dflt = s.dflt := rfl
@[simp] theorem putLoc_nextC {o} : (s.putLoc c o).nextC = s.nextC := rfl
@[simp] theorem putLoc_loc {o} : (s.putLoc c o).loc d = if d = c then o else s.loc d := rfl
@[simp] theorem putApp_tr {a o} : (s.putApp a o).tr = s.tr := rfl
@[simp] theorem putApp_att {a o} : (s.putApp a o).att = s.att := rfl
@[simp] theorem putApp_pc {a o} : (s.putApp a o).pc = s.pc := rfl
@[simp] theorem putApp_loc {a o} : (s.putApp a o).loc = s.loc := rfl
@[simp] theorem putApp_th {a o} : (s.putApp a o).th = s.th := rfl
@[simp] theorem putApp_dflt {a o} : (s.putApp a o).dflt = s.dflt := rfl
@[simp] theorem putApp_nextC {a o} : (s.putApp a o).nextC = s.nextC := rfl
@[simp] theorem putApp_obj {a b o} : (s.putApp a o).obj b = if b = a then o else s.obj b := rfl
@[simp] theorem put_tr : (s.put c q o).tr = s.tr := by cases q <;> rfl
@[simp] theorem put_att : (s.put c q o).att = s.att := by cases q <;> rfl
@[simp] theorem put_pc : (s.put c q o).pc = s.pc := by cases q <;> rfl
@[simp] theorem put_th : (s.put c q o).th = s.th := by cases q <;> rfl
@[simp] theorem put_dflt : (s.put c q o).dflt = s.dflt := by cases q <;> rfl
@[simp] theorem put_nextC : (s.put c q o).nextC = s.nextC := by cases q <;> rfl
@[simp] theorem resize_tr : (s.resize c q o n ok).tr = .set c q n ok :: s.tr := by cases ok <;> simp [S.resize]
@[simp] theorem resize_att : (s.resize c q o n ok).att = s.att := by cases ok <;> simp [S.resize]
@[simp] theorem resize_pc : (s.resize c q o n ok).pc = s.pc := by cases ok <;> simp [S.resize]
@[simp] theorem resize_th : (s.resize c q o n ok).th = s.th := by cases ok <;> simp [S.resize]
@[simp] theorem resize_dflt : (s.resize c q o n ok).dflt = s.dflt := by cases ok <;> simp [S.resize]
@[simp] theorem resize_nextC : (s.resize c q o n ok).nextC = s.nextC := by cases ok <;> simp [S.resize]
end

/-- How a step of a call ends: it goes on to `p`, having done `e` and perhaps more; it returns; or it
has used what is not there. -/
inductive CMove (s : S) (t : Tid) (c : Call) (rest : List Slot) : Bool → Nat → Pc → S → Prop where
  | pre {ok n} : CMove s t c rest ok n .pre
      (s.goto c (if ok then .direct else if s.att c = none then .init else .get))
  | direct {ok n o} : (orig (s.att c) = .null ∧ o = none ∨ orig (s.att c) ≠ .null ∧ o ≠ none ∧ s.cell c (orig (s.att c)) = o) →
      CMove s t c rest ok n .direct
        ((((s.log (.create c (orig (s.att c)) o n)).log (.ret c n)).goto c .done).setTh t rest)
  | init {n} : CMove s t c rest true n .init (((s.log (.init c true)).putLoc c (some {})).goto c .get)
  | noInit {n} : CMove s t c rest false n .init ((s.log (.init c false)).goto c (.create .null none false))
  | get {n o} : s.cell c (target (s.att c)) = some o →
      CMove s t c rest true n .get ((s.log (.get c (target (s.att c)) true)).goto c (.ask (o.stackSize s.dflt)))
  | noGet {n o} : s.cell c (target (s.att c)) = some o →
      CMove s t c rest false n .get
        ((s.log (.get c (target (s.att c)) false)).goto c (.create (orig (s.att c)) none (s.att c).isNone))
  | same {ok n} : CMove s t c rest ok n (.ask n)
      ((s.log (.ask c n n)).goto c (.create (orig (s.att c)) none (s.att c).isNone))
  | ask {ok n old} : n ≠ old → CMove s t c rest ok n (.ask old) ((s.log (.ask c old n)).goto c (.set old n))
  | set {n o old new} : s.cell c (target (s.att c)) = some o →
      CMove s t c rest true n (.set old new) ((s.resize c (target (s.att c)) o new true).goto c
        (.create (target (s.att c)) (if target (s.att c) = orig (s.att c) then some old else none) (s.att c).isNone))
  | noSet {n o old new} : s.cell c (target (s.att c)) = some o →
      CMove s t c rest false n (.set old new) ((s.resize c (target (s.att c)) o new false).goto c
        (.create (orig (s.att c)) none (s.att c).isNone))
  | create {ok n p r d o} : (p = .null ∧ o = none ∨ p ≠ .null ∧ o ≠ none ∧ s.cell c p = o) →
      CMove s t c rest ok n (.create p r d) ((s.log (.create c p o n)).goto c (afterReal d n r))
  | restore {ok n old d r o} : s.cell c (orig (s.att c)) = some o →
      CMove s t c rest ok n (.restore old d r)
        ((s.resize c (orig (s.att c)) o old ok).goto c (cleanup d r))
  | destroy {ok n r o} : s.loc c = some o → CMove s t c rest ok n (.destroy r)
      (((s.log (.destroy c)).putLoc c none).goto c (.post r))
  | post {ok n r} : CMove s t c rest ok n (.post r) (((s.log (.ret c r)).goto c .done).setTh t rest)
  | crash {ok n p q} : s.cell c q = none → q ≠ .null →
      (p = .direct ∧ q = orig (s.att c) ∨ p = .get ∧ q = target (s.att c) ∨
        (∃ v w, p = .set v w ∧ q = target (s.att c)) ∨ (∃ r d, p = .create q r d) ∨
        (∃ v d r, p = .restore v d r ∧ q = orig (s.att c)) ∨ ∃ r, p = .destroy r ∧ q = .dflt) →
      CMove s t c rest ok n p (s.crash c q)

theorem real_cases {s : S} {c : Call} {p : Ptr} {r : Nat} {k : S → S} :
    (∃ o, (p = .null ∧ o = none ∨ p ≠ .null ∧ o ≠ none ∧ s.cell c p = o) ∧ s.real c p r k = k (s.log (.create c p o r))) ∨
    (p ≠ .null ∧ s.cell c p = none ∧ s.real c p r k = s.crash c p) := by
  unfold S.real
  split
  · rename_i h; exact .inl ⟨none, .inl ⟨h, rfl⟩, rfl⟩
  · rename_i h
    split
    · rename_i h'; exact .inr ⟨h, h', rfl⟩
    · rename_i o h'; exact .inl ⟨some o, .inr ⟨h, by simp, h'⟩, rfl⟩

theorem target_ne {a : Option Id} : target a ≠ .null := by cases a <;> simp [target]

theorem cmove_of {s s' : S} {t : Tid} {c : Call} {rest : List Slot} {ok : Bool} {n : Nat} {p : Pc}
    (h : cstep s t c rest ok n p = some s') (hr : ∀ v d r, p = .restore v d r → (s.att c).isSome) :
    CMove s t c rest ok n p s' := by
  cases p with
  | none => simp [cstep] at h
  | pre =>
    have : s' = s.goto c (if ok then .direct else if s.att c = none then .init else .get) := by
      cases ok <;> simp [cstep] at h <;> simp [h]
    subst this; exact .pre
  | direct =>
    simp only [cstep, Option.some.injEq] at h
    subst h
    rcases @real_cases s c (orig (s.att c)) n
      (fun s => ((s.log (.ret c n)).goto c .done).setTh t rest) with ⟨o, ho, he⟩ | ⟨h1, h2, he⟩ <;> rw [he]
    · exact .direct ho
    · exact .crash h2 h1 (.inl ⟨rfl, rfl⟩)
  | init =>
    cases ok <;> simp [cstep] at h <;> subst h
    · exact .noInit
    · exact .init
  | get =>
    simp only [cstep] at h
    split at h
    · rename_i ho
      simp only [Option.some.injEq] at h; subst h
      exact .crash ho target_ne (.inr (.inl ⟨rfl, rfl⟩))
    · rename_i o ho
      cases ok <;> simp at h <;> subst h
      · exact .noGet ho
      · exact .get ho
  | ask old =>
    simp only [cstep] at h
    split at h <;> rename_i hn <;> simp only [Option.some.injEq] at h <;> subst h
    · subst hn; exact .same
    · exact .ask hn
  | set old new =>
    simp only [cstep] at h
    split at h
    · rename_i ho
      simp only [Option.some.injEq] at h; subst h
      exact .crash ho target_ne (.inr (.inr (.inl ⟨_, _, rfl, rfl⟩)))
    · rename_i o ho
      cases ok <;> simp at h <;> subst h
      · exact .noSet ho
      · exact .set ho
  | create p r d =>
    simp only [cstep, Option.some.injEq] at h
    subst h
    rcases @real_cases s c p n (fun s => s.goto c (afterReal d n r)) with ⟨o, ho, he⟩ | ⟨h1, h2, he⟩ <;> rw [he]
    · exact .create ho
    · exact .crash h2 h1 (.inr (.inr (.inr (.inl ⟨_, _, rfl⟩))))
  | restore old d r =>
    simp only [cstep] at h
    split at h <;> rename_i ho <;> simp only [Option.some.injEq] at h <;> subst h
    · refine .crash ho ?_ (.inr (.inr (.inr (.inr (.inl ⟨_, _, _, rfl, rfl⟩)))))
      have := hr _ _ _ rfl
      cases ha : s.att c <;> simp [ha, orig] at this ⊢
    · exact .restore ho
  | destroy r =>
    simp only [cstep] at h
    split at h <;> rename_i ho <;> simp only [Option.some.injEq] at h <;> subst h
    · exact .crash ho (by simp) (.inr (.inr (.inr (.inr (.inr ⟨_, rfl, rfl⟩)))))
    · exact .destroy ho
  | post r => simp only [cstep, Option.some.injEq] at h; subst h; exact .post
  | done => simp [cstep] at h
  | gone => simp [cstep] at h

/-! ### What each call does -/

/-- What a call does before the adjustment. -/
def head (c : Call) : Option Id → List Ev
  | none => [.enter c none, .init c true]
  | some a => [.enter c (some a)]

/-- What call `c`, made with `a`, has done (`l`) when it is at `p` and its local object is `o`. -/
def Told (c : Call) (a : Option Id) (o : Option Obj) (l : List Ev) : Pc → Prop
  | .none => l = []
  | .pre | .direct => l = [.enter c a]
  | .init => a = none ∧ l = [.enter c none]
  | .get => (a = none → o = some {}) ∧ l = head c a
  | .ask _ => (a = none → o = some {}) ∧ l = head c a ++ [.get c (target a) true]
  | .set v n => (a = none → o = some {}) ∧ n ≠ v ∧ l = head c a ++ [.get c (target a) true, .ask c v n]
  | .create p r d => (a = none ∧ p = .null ∧ r = none ∧ d = false ∧ l = [.enter c none, .init c false]) ∨
      (∃ adj, Adjust c (target a) adj none ∧ l = head c a ++ adj ∧ p = orig a ∧ r = none ∧ d = a.isNone ∧
        (a = none → ∃ x, o = some x)) ∨
      ∃ adj v n, Adjust c (target a) adj (some (v, n)) ∧ l = head c a ++ adj ∧ p = target a ∧
        r = (if a.isSome then some v else none) ∧ d = a.isNone ∧ (a = none → o = some { size := some n })
  | .restore v d r => ∃ b adj n x, a = some b ∧ d = false ∧ Adjust c (.app b) adj (some (v, n)) ∧
      l = [.enter c (some b)] ++ adj ++ [.create c (.app b) x r]
  | .destroy r => a = none ∧ (∃ x, o = some x) ∧ Script c (l ++ [.destroy c, .ret c r])
  | .post r => Script c (l ++ [.ret c r])
  | .done => Script c l
  | .gone => ∃ rest, Script c (l ++ rest)

theorem told_prefix {c : Call} {a : Option Id} {o : Option Obj} {l : List Ev} {p : Pc} (h : Told c a o l p) :
    ∃ rest, Script c (l ++ rest) := by
  have noGet : ∃ rest, Script c (head c a ++ [.get c (target a) false] ++ rest) := by
    cases a with
    | none => exact ⟨_, by simpa [head, target] using Script.plain _ 0 .noGet⟩
    | some b => exact ⟨_, by simpa [head, target] using Script.kept b _ none 0 .noGet⟩
  have adj0 : ∀ adj, Adjust c (target a) adj none → ∃ rest, Script c (head c a ++ adj ++ rest) := by
    intro adj h
    cases a with
    | none => exact ⟨_, by simpa [head, target] using Script.plain _ 0 h⟩
    | some b => exact ⟨_, by simpa [head, target] using Script.kept b _ none 0 h⟩
  have adj1 : ∀ adj v n, Adjust c (target a) adj (some (v, n)) → ∃ rest, Script c (head c a ++ adj ++ rest) := by
    intro adj v n h
    cases a with
    | none => exact ⟨_, by simpa [head, target] using Script.own _ v n 0 h⟩
    | some b => exact ⟨_, by simpa [head, target] using Script.changed b _ v n none 0 true h⟩
  have cut : ∀ {l l' : List Ev}, (∃ rest, Script c (l ++ l' ++ rest)) → ∃ rest, Script c (l ++ rest) := by
    rintro l l' ⟨rest, h⟩; exact ⟨l' ++ rest, by simpa using h⟩
  cases p with
  | none => subst h; exact ⟨_, Script.ignored none none 0⟩
  | pre => subst h; exact ⟨_, Script.ignored a none 0⟩
  | direct => subst h; exact ⟨_, Script.ignored a none 0⟩
  | init => obtain ⟨_, rfl⟩ := h; exact ⟨_, Script.noInit 0⟩
  | get => obtain ⟨_, rfl⟩ := h; exact cut noGet
  | ask v =>
    obtain ⟨_, rfl⟩ := h
    obtain ⟨r, hr⟩ := adj0 _ (.same v)
    exact ⟨.ask c v v :: r, by simpa using hr⟩
  | set v n =>
    obtain ⟨_, hn, rfl⟩ := h
    obtain ⟨r, hr⟩ := adj0 _ (.noSet v n hn)
    exact ⟨.set c (target a) n false :: r, by simpa using hr⟩
  | create p r d =>
    rcases h with ⟨_, _, _, _, rfl⟩ | ⟨adj, h, rfl, _⟩ | ⟨adj, v, n, h, rfl, _⟩
    · exact ⟨_, Script.noInit 0⟩
    · exact adj0 _ h
    · exact adj1 _ _ _ h
  | restore v d r =>
    obtain ⟨b, adj, n, x, rfl, _, h, rfl⟩ := h
    exact ⟨_, by simpa using Script.changed b _ v n x r true h⟩
  | destroy r => exact ⟨_, h.2.2⟩
  | post r => exact ⟨_, h⟩
  | done => exact ⟨[], by simpa [Told] using h⟩
  | gone => exact h

structure Inv (s : S) : Prop where
  told : ∀ c, Told c (s.att c) (s.loc c) (ofCall c s.tr) (s.pc c)
  fresh : ∀ c, s.nextC ≤ c → s.pc c = .none
  below : ∀ t c, .call c ∈ s.th t → c < s.nextC
  /-- what has returned is over -/
  over : ∀ c r, .ret c r ∈ s.tr → s.running c = false
  ret : ∀ c r, .ret c r ∈ s.tr → Script c (ofCall c s.tr)
  /-- the local objects are always there when they are used -/
  ub : ∀ c p, .ub c p ∈ s.tr → ∃ a, p = .app a

/-- The new state differs only for call `c`. -/
structure Alone (c : Call) (s s' : S) : Prop where
  th : ∀ u, s'.th u = s.th u ∨ s'.th u = (s.th u).tail
  pc : ∀ d, d ≠ c → s'.pc d = s.pc d
  loc : ∀ d, d ≠ c → s'.loc d = s.loc d
  att : s'.att = s.att
  nextC : s'.nextC = s.nextC
  of : ∀ d, d ≠ c → ofCall d s'.tr = ofCall d s.tr

theorem cmove_alone {s s' : S} {t : Tid} {c : Call} {rest : List Slot} {ok : Bool} {n : Nat} {p : Pc}
    (h : CMove s t c rest ok n p s') (ht : s.th t = .call c :: rest) : Alone c s s' := by
  have hput : ∀ (s : S) q (o : Obj) m b d, d ≠ c → (s.resize c q o m b).loc d = s.loc d := by
    intro s q o m b d hd
    cases b <;> cases q <;> simp [S.resize, S.put, hd]
  have hs : ∀ {d : Call}, d ≠ c → ∀ {x : Call}, x = c → x ≠ d := fun h1 _ h2 h3 => h1 (h3 ▸ h2)
  have hth : ∀ u, (if u = t then rest else s.th u) = s.th u ∨ (if u = t then rest else s.th u) = (s.th u).tail := by
    intro u
    split
    · rename_i hu; subst hu; rw [ht]; exact .inr rfl
    · exact .inl rfl
  have hTh : ∀ (s' : S), s'.th = s.th → ∀ u, (s'.setTh t rest).th u = s.th u ∨ (s'.setTh t rest).th u = (s.th u).tail := by
    intro s' h u; simpa [S.setTh, h] using hth u
  cases h <;> refine ⟨?_, ?_, ?_, ?_, ?_, ?_⟩ <;> (try exact hTh _ rfl) <;>
    (try exact fun u => .inl (by simp [S.crash])) <;> (try intro d hd) <;> (try have := Ne.symm hd) <;>
    simp [S.crash, ofCall_cons, Ev.call, *]

theorem told_cmove {s s' : S} {t : Tid} {c : Call} {rest : List Slot} {ok : Bool} {n : Nat} {p : Pc}
    (h : CMove s t c rest ok n p s') (ht : Told c (s.att c) (s.loc c) (ofCall c s.tr) p)
    (hp : s.pc c = p) : Told c (s'.att c) (s'.loc c) (ofCall c s'.tr) (s'.pc c) := by
  cases h with
  | pre =>
    cases ok
    · cases ha : s.att c <;> simp_all [Told, head]
    · simpa [Told] using ht
  | @direct ok n o ho =>
    simp only [Told] at ht
    simp only [setTh_tr, goto_tr, log_tr, setTh_pc, goto_pc, if_true, Told]
    simpa [ofCall_cons, Ev.call, ht] using Script.ignored (c := c) (s.att c) o n
  | init =>
    simp only [Told] at ht
    simp [Told, ofCall_cons, Ev.call, ht, head]
  | noInit =>
    simp only [Told] at ht
    simp [Told, ofCall_cons, Ev.call, ht, head]
  | get ho =>
    simp only [Told] at ht
    simpa [Told, ofCall_cons, Ev.call, ht.2] using ht.1
  | noGet ho =>
    simp only [Told] at ht
    simp only [goto_att, log_att, goto_loc, log_loc, goto_tr, log_tr, goto_pc, if_pos, Told]
    refine .inr (.inl ⟨_, .noGet, by simp [ofCall_cons, Ev.call, ht.2], trivial, trivial, trivial, fun h => ⟨_, ht.1 h⟩⟩)
  | same =>
    simp only [Told] at ht
    simp only [goto_att, log_att, goto_loc, log_loc, goto_tr, log_tr, goto_pc, if_pos, Told]
    exact .inr (.inl ⟨_, .same n, by simp [ofCall_cons, Ev.call, ht.2], trivial, trivial, trivial, fun h => ⟨_, ht.1 h⟩⟩)
  | ask hn =>
    simp only [Told] at ht
    simp only [goto_att, log_att, goto_loc, log_loc, goto_tr, log_tr, goto_pc, if_true, Told]
    exact ⟨ht.1, hn, by simp [ofCall_cons, Ev.call, ht.2]⟩
  | @set n o old new ho =>
    simp only [Told] at ht
    simp only [goto_att, resize_att, goto_loc, goto_tr, resize_tr, goto_pc, if_pos, Told]
    refine .inr (.inr ⟨_, old, new, .set old new ht.2.1, by simp [ofCall_cons, Ev.call, ht.2.2], trivial, ?_, trivial, ?_⟩)
    · cases s.att c <;> simp [target, orig]
    · intro ha
      have := ht.1 ha
      rw [ha] at ho
      simp only [target, S.cell, this, Option.some.injEq] at ho
      simp [ha, target, S.resize, S.put, ← ho]
  | @noSet n o old new ho =>
    simp only [Told] at ht
    simp only [goto_att, resize_att, goto_loc, goto_tr, resize_tr, goto_pc, if_pos, Told]
    exact .inr (.inl ⟨_, .noSet old new ht.2.1, by simp [ofCall_cons, Ev.call, ht.2.2], trivial, trivial, trivial,
      fun h => ⟨_, by simpa [S.resize] using ht.1 h⟩⟩)
  | @create ok n p r d o ho =>
    simp only [Told] at ht
    simp only [goto_att, log_att, goto_loc, log_loc, goto_tr, log_tr, goto_pc, if_true]
    have hof : ofCall c (.create c p o n :: s.tr) = ofCall c s.tr ++ [.create c p o n] := by
      simp [ofCall_cons, Ev.call]
    rw [hof]
    rcases ht with ⟨ha, rfl, rfl, rfl, hl⟩ | ⟨adj, hadj, hl, rfl, rfl, rfl, hx⟩ | ⟨adj, v, m, hadj, hl, rfl, rfl, rfl, hx⟩
    · have : o = none := by simpa using ho
      simpa [afterReal, cleanup, Told, hl, this] using Script.noInit (c := c) n
    · cases ha : s.att c with
      | none =>
        rw [ha] at hadj hl
        have : o = none := by simpa [ha, orig] using ho
        simp only [afterReal, cleanup, Option.isNone_none, if_true, Told, this, hl]
        exact ⟨trivial, hx ha, by simpa [head, orig] using Script.plain adj n hadj⟩
      | some b =>
        rw [ha] at hadj hl
        simp only [afterReal, cleanup, Option.isNone_some, Bool.false_eq_true, if_false, Told, hl]
        simpa [head, orig] using Script.kept b adj o n hadj
    · cases ha : s.att c with
      | none =>
        rw [ha] at hadj hl ho
        have : o = some { size := some m } := by
          have := (ho.resolve_left (by simp [target])).2.2
          simpa [target, S.cell, hx ha, eq_comm] using this
        simp only [afterReal, cleanup, Option.isSome_none, Bool.false_eq_true, if_false, Option.isNone_none, if_true,
          Told, this, hl]
        exact ⟨trivial, ⟨_, hx ha⟩, by simpa [head, target] using Script.own adj v m n hadj⟩
      | some b =>
        rw [ha] at hadj hl
        simp only [Option.isSome_some, if_true, afterReal, Told]
        exact ⟨b, adj, m, o, rfl, rfl, hadj, by simp [hl, head, target]⟩
  | @restore ok n old d r o ho =>
    simp only [Told] at ht
    obtain ⟨b, adj, m, x, ha, rfl, hadj, hl⟩ := ht
    simp only [goto_tr, resize_tr, goto_pc, if_true, cleanup, Bool.false_eq_true, if_false, Told]
    simpa [ofCall_cons, Ev.call, hl, ha, orig] using Script.changed b adj old m x r ok hadj
  | destroy ho =>
    simp only [Told] at ht
    simpa [Told, ofCall_cons, Ev.call] using ht.2.2
  | post =>
    simp only [Told] at ht
    simpa [Told, ofCall_cons, Ev.call] using ht
  | crash => simpa [S.crash, ofCall_cons, Ev.call, hp] using ht

theorem log_use {s : S} {u : Use} : ((s.log (.use u)).use u).pc = s.pc ∧ ((s.log (.use u)).use u).att = s.att ∧
    ((s.log (.use u)).use u).loc = s.loc ∧ ((s.log (.use u)).use u).nextC = s.nextC ∧
    ((s.log (.use u)).use u).tr = .use u :: s.tr ∧ ((s.log (.use u)).use u).th = s.th := by
  cases u <;> simp [S.use, S.log, S.putApp]

theorem inv_step {s s' : S} {l : Lbl} (hi : Inv s) (hn : next s l = some s') : Inv s' := by
  unfold next at hn
  split at hn
  · simp at hn
  cases l with
  | step t ok n =>
    simp only at hn
    split at hn
    · rename_i c rest he
      have ht := hi.told c
      have hm := cmove_of hn (by
        intro v d r hp
        rw [hp] at ht
        obtain ⟨b, _, _, _, hb, _⟩ := ht
        simp [hb])
      have hT := told_cmove hm ht rfl
      have hA := cmove_alone hm he
      have hrun : s.running c = true := by
        unfold S.running
        split <;> rename_i hp
        · rw [hp] at hn; simp [cstep] at hn
        · rw [hp] at hn; simp [cstep] at hn
        · rw [hp] at hn; simp [cstep] at hn
        · rfl
      have hdone : ∀ r, .ret c r ∉ s.tr → .ret c r ∈ s'.tr → s'.pc c = .done := by
        intro r hold hr
        revert hm
        generalize s.pc c = p
        intro hm
        cases hm <;> simp_all [S.crash]
      have hback : ∀ d r, d ≠ c → .ret d r ∈ s'.tr → .ret d r ∈ s.tr := by
        intro d r hdc hr
        refine (mem_ofCall rfl).mp ?_
        rw [← hA.of d hdc]
        exact (mem_ofCall rfl).mpr hr
      refine ⟨?_, ?_, ?_, ?_, ?_, ?_⟩
      · intro d
        by_cases hd : d = c
        · subst hd; exact hT
        · rw [hA.att, hA.loc d hd, hA.of d hd, hA.pc d hd]; exact hi.told d
      · intro d hd
        rw [hA.nextC] at hd
        have hf := hi.fresh d hd
        by_cases hdc : d = c
        · subst hdc; rw [hf] at hn; simp [cstep] at hn
        · rw [hA.pc d hdc]; exact hf
      · intro u d hd
        rw [hA.nextC]
        rcases hA.th u with h | h <;> rw [h] at hd
        · exact hi.below u d hd
        · exact hi.below u d (List.mem_of_mem_tail hd)
      · intro d r hr
        by_cases hdc : d = c
        · subst hdc
          by_cases hold : .ret d r ∈ s.tr
          · exact absurd (hi.over d r hold) (by simp [hrun])
          · simp [S.running, hdone r hold hr]
        · have := hi.over d r (hback d r hdc hr)
          simp only [S.running, hA.pc d hdc] at this ⊢
          exact this
      · intro d r hr
        by_cases hdc : d = c
        · subst hdc
          by_cases hold : .ret d r ∈ s.tr
          · exact absurd (hi.over d r hold) (by simp [hrun])
          · rw [hdone r hold hr] at hT; exact hT
        · rw [hA.of d hdc]; exact hi.ret d r (hback d r hdc hr)
      · intro d q hq
        by_cases hold : .ub d q ∈ s.tr
        · exact hi.ub d q hold
        · revert hm ht
          generalize s.pc c = p
          intro ht hm
          cases hm with
          | @crash ok n p q' h1 h2 h3 =>
            simp only [S.crash, log_tr, List.mem_cons, Ev.ub.injEq, hold, or_false] at hq
            obtain ⟨rfl, rfl⟩ := hq
            cases q with
            | null => simp at h2
            | app a => exact ⟨a, rfl⟩
            | dflt =>
              exfalso
              simp only [S.cell] at h1
              have htar : ∀ a, .dflt = target a → a = none := by intro a; cases a <;> simp [target]
              have hor : ∀ a, .dflt ≠ orig a := by intro a; cases a <;> simp [orig]
              rcases h3 with ⟨rfl, h⟩ | ⟨rfl, h⟩ | ⟨v, w, rfl, h⟩ | ⟨r, d', rfl⟩ | ⟨v, d', r, rfl, h⟩ | ⟨r, rfl, _⟩
              · exact hor _ h
              · simp [Told, htar _ h, h1] at ht
              · simp [Told, htar _ h, h1] at ht
              · simp only [Told, h1] at ht
                rcases ht with ⟨_, h, _⟩ | ⟨_, _, _, h, _⟩ | ⟨_, _, _, _, _, h, _, _, h'⟩
                · simp at h
                · exact hor _ h
                · simp [htar _ h] at h'
              · exact hor _ h
              · simp [Told, h1] at ht
          | _ => simp_all
    · simp at hn
  | create t a =>
    simp only at hn
    split at hn
    · simp only [Option.some.injEq] at hn; subst hn
      have hf := hi.fresh s.nextC (Nat.le_refl _)
      have h0 := hi.told s.nextC
      rw [hf] at h0
      simp only [Told] at h0
      refine ⟨?_, ?_, ?_, ?_, ?_, ?_⟩
      · intro d
        by_cases hd : d = s.nextC
        · subst hd; simp [S.setTh, S.goto, S.log, ofCall_cons, Ev.call, h0, Told]
        · have := hi.told d
          simpa [S.setTh, S.goto, S.log, ofCall_cons, Ev.call, hd, Ne.symm hd] using this
      · intro d hd
        simp only [S.setTh, S.goto, S.log] at hd ⊢
        rw [if_neg (Nat.ne_of_gt hd)]
        exact hi.fresh d (Nat.le_of_lt hd)
      · intro u d hd
        simp only [S.setTh, S.goto, S.log] at hd ⊢
        split at hd
        · rename_i hu; subst hu
          rcases List.mem_cons.mp hd with h | h
          · cases h; exact Nat.lt_succ_self _
          · exact Nat.lt_succ_of_lt (hi.below u d h)
        · exact Nat.lt_succ_of_lt (hi.below u d hd)
      · intro d r hr
        simp only [S.setTh, S.goto, S.log, List.mem_cons, reduceCtorEq, false_or] at hr
        have hne : d ≠ s.nextC := by
          rintro rfl
          have := (mem_ofCall (c := s.nextC) rfl).mpr hr
          rw [h0] at this; simp at this
        have := hi.over d r hr
        simpa [S.running, S.setTh, S.goto, S.log, hne] using this
      · intro d r hr
        simp only [S.setTh, S.goto, S.log, List.mem_cons, reduceCtorEq, false_or] at hr
        have hne : d ≠ s.nextC := by
          rintro rfl
          have := (mem_ofCall (c := s.nextC) rfl).mpr hr
          rw [h0] at this; simp at this
        have := hi.ret d r hr
        simpa [S.setTh, S.goto, S.log, ofCall_cons, Ev.call, hne, Ne.symm hne] using this
      · intro d p hp
        simp only [S.setTh, S.goto, S.log, List.mem_cons, reduceCtorEq, false_or] at hp
        exact hi.ub d p hp
    · simp at hn
  | use t u =>
    simp only at hn
    split at hn
    · simp only [Option.some.injEq] at hn; subst hn
      obtain ⟨h1, h2, h3, h4, h5, h6⟩ := @log_use s u
      refine ⟨fun c => ?_, fun c => by rw [h4, h1]; exact hi.fresh c,
        fun u c => by rw [h4, h6]; exact hi.below u c, fun c r h => ?_, fun c r h => ?_,
        fun c p h => ?_⟩
      · rw [h1, h2, h3, h5, ofCall_cons]; simpa [Ev.call] using hi.told c
      · rw [h5] at h
        have := hi.over c r (by simpa using h)
        simpa only [S.running, h1] using this
      · rw [h5] at h ⊢
        rw [ofCall_cons]; simpa [Ev.call] using hi.ret c r (by simpa using h)
      · rw [h5] at h; exact hi.ub c p (by simpa using h)
    · simp at hn
  | fork t =>
    simp only at hn
    split at hn
    · simp only [Option.some.injEq] at hn; subst hn
      refine ⟨fun c => ?_, fun c h => ?_, fun u c h => ?_, fun c r h => ?_, fun c r h => ?_,
        fun c p h => hi.ub c p (by simpa [S.log] using h)⟩
      · have := hi.told c
        simp only [S.log, ofCall_cons, Ev.call]
        simp only [reduceCtorEq, if_false]
        split
        · exact this
        · exact told_prefix this
      · have := hi.fresh c h
        simp [this]
      · dsimp only at h
        split at h
        · exact hi.below t c h
        · simp at h
      · have := hi.over c r (by simpa [S.log] using h)
        simp only [S.running] at this ⊢
        split
        · rfl
        · rfl
        · rfl
        · rename_i h1 h2 h3
          split at h1 <;> simp_all
      · have := hi.ret c r (by simpa [S.log] using h)
        simpa [S.log, ofCall_cons, Ev.call] using this
    · simp at hn
  | out t =>
    simp only [Option.some.injEq] at hn; subst hn
    refine ⟨hi.told, hi.fresh, fun u c h => ?_, hi.over, hi.ret, hi.ub⟩
    simp only [S.setTh] at h ⊢
    split at h
    · rename_i hu; subst hu; exact hi.below u c (by simpa using h)
    · exact hi.below u c h
  | back t =>
    simp only at hn
    split at hn
    · rename_i rest he
      simp only [Option.some.injEq] at hn; subst hn
      refine ⟨hi.told, hi.fresh, fun u c h => ?_, hi.over, hi.ret, hi.ub⟩
      simp only [S.setTh] at h ⊢
      split at h
      · rename_i hu; subst hu; exact hi.below u c (by simp [he, h])
      · exact hi.below u c h
    · simp at hn
  | unwind t =>
    simp only at hn
    split at hn
    · rename_i rest he
      simp only [Option.some.injEq] at hn; subst hn
      refine ⟨hi.told, hi.fresh, fun u c h => ?_, hi.over, hi.ret, hi.ub⟩
      simp only [S.setTh] at h ⊢
      split at h
      · rename_i hu; subst hu; exact hi.below u c (by simp [he, h])
      · exact hi.below u c h
    · rename_i c rest he
      simp only [Option.some.injEq] at hn; subst hn
      refine ⟨fun d => ?_, fun d hd => ?_, fun u d h => ?_, fun d r h => ?_, hi.ret, hi.ub⟩
      · have := hi.told d
        simp only [S.setTh, S.goto]
        split
        · exact told_prefix this
        · exact this
      · simp only [S.setTh, S.goto] at hd ⊢
        have := hi.below t c (by simp [he])
        rw [if_neg (Nat.ne_of_gt (Nat.lt_of_lt_of_le this hd))]; exact hi.fresh d hd
      · simp only [S.setTh, S.goto] at h ⊢
        split at h
        · rename_i hu; subst hu; exact hi.below u d (by simp [he, h])
        · exact hi.below u d h
      · have := hi.over d r h
        simp only [S.running, S.setTh, S.goto] at this ⊢
        by_cases hd : d = c
        · simp [hd]
        · simpa [hd] using this
    · simp at hn

theorem inv_of {A : S → Lbl → Prop} {d0 : Nat} {s : S} (hs : ReachA A d0 s) : Inv s := by
  induction hs with
  | init =>
    exact ⟨fun c => by simp [Told, ofCall], fun c _ => rfl, fun t c h => by simp at h, fun c r h => by simp at h,
      fun c r h => by simp at h, fun c p h => by simp at h⟩
  | next _ _ hn ih => exact inv_step ih hn

end Libmonitor.AttrC
