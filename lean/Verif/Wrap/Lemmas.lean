import Verif.Wrap.Spec

/-! # Invariants for the claim on MPI wrappers -/

namespace Libmonitor.Wrap

/-! ## The tables -/

theorem symOf_own (w : W) : symOf w = w.own := by
  obtain ⟨p, f, l⟩ := w
  cases p <;> cases f <;> cases l <;> rfl

theorem sizeSym_own (w : W) : sizeSym w.pmpi w.lang = w.ownSize := by
  obtain ⟨p, f, l⟩ := w
  cases p <;> cases l <;> rfl

theorem passed_eq {w : W} {args : List Nat} (h : args.length = arity w.fn w.lang) :
    passed w args = args := by
  obtain ⟨p, f, l⟩ := w
  cases f <;> cases l <;> simp only [arity] at h <;>
    (rcases args with _ | ⟨a, _ | ⟨b, _ | ⟨c, _ | ⟨d, _ | ⟨e, r⟩⟩⟩⟩⟩) <;>
    first
    | rfl
    | (simp only [List.length_cons, List.length_nil] at h; omega)

/-- The name whose address a variable holds. -/
def Var.sym : Var → Sym
  | .file fn l => W.own ⟨false, fn, l⟩
  | .pmpi fn l => W.own ⟨true, fn, l⟩
  | .fileSize l => W.ownSize ⟨false, .commRank, l⟩
  | .pmpiSize l => W.ownSize ⟨true, .commRank, l⟩

theorem varOf_sym (w : W) : (varOf w).sym = w.own := by
  obtain ⟨p, f, l⟩ := w
  cases p <;> cases f <;> cases l <;> rfl

theorem sizeVar_sym (w : W) : (sizeVar w.pmpi w.lang).sym = w.ownSize := by
  obtain ⟨p, f, l⟩ := w
  cases p <;> cases l <;> rfl

/-! ## Histories -/

theorem always_mem {P : Tid → Ev → Hist → Prop} {tr : Hist} {t : Tid} {e : Ev}
    (h : Always P tr) (hm : (t, e) ∈ tr) : ∃ old, P t e old ∧ ∀ x ∈ old, x ∈ tr := by
  induction tr with
  | nil => cases hm
  | cons x tr ih =>
    rcases List.mem_cons.1 hm with rfl | hm
    · exact ⟨tr, h.1, fun _ => List.mem_cons_of_mem _⟩
    · obtain ⟨old, h1, h2⟩ := ih h.2 hm
      exact ⟨old, h1, fun x hx => List.mem_cons_of_mem _ (h2 x hx)⟩

/-- A numbered call is entered once. -/
theorem enter_unique {tr : Hist} (h : Always Through tr) {t u : Tid} {id : Nat} {w w' : W}
    {a a' : List Nat} (h1 : (t, Ev.enter id w a) ∈ tr) (h2 : (u, Ev.enter id w' a') ∈ tr) :
    t = u ∧ w = w' ∧ a = a' := by
  induction tr with
  | nil => cases h1
  | cons x tr ih =>
    rcases List.mem_cons.1 h1 with rfl | m1 <;> rcases List.mem_cons.1 h2 with e2 | m2
    · cases e2; exact ⟨rfl, rfl, rfl⟩
    · exact absurd m2 (h.1 u w' a')
    · subst e2; exact absurd m1 (h.1 t w a)
    · exact ih h.2 m1 m2

/-- The call that an event belongs to. -/
def Ev.about : Ev → Option Nat
  | .size id _ _ | .real id _ _ | .realRet id _ | .initMpi id _ _ | .ret id _ => some id
  | _ => none

theorem about_enter {tr : Hist} (h : Always Through tr) {t : Tid} {e : Ev} {id : Nat}
    (hm : (t, e) ∈ tr) (he : e.about = some id) : ∃ w a, (t, Ev.enter id w a) ∈ tr := by
  induction tr generalizing e with
  | nil => cases hm
  | cons x tr ih =>
    have key : ∀ e', (t, e') ∈ tr → e'.about = some id → ∃ w a, (t, Ev.enter id w a) ∈ x :: tr := by
      intro e' hm' he'
      obtain ⟨w, a, hw⟩ := ih h.2 hm' he'
      exact ⟨w, a, List.mem_cons_of_mem _ hw⟩
    rcases List.mem_cons.1 hm with rfl | hm
    · have h1 := h.1
      cases e <;> simp only [Ev.about, Option.some.injEq, reduceCtorEq] at he
      case size =>
        subst he; obtain ⟨⟨w, a, hw, _⟩, _⟩ := h1; exact ⟨w, a, List.mem_cons_of_mem _ hw⟩
      case real =>
        subst he; obtain ⟨⟨w, hw, _⟩, _⟩ := h1; exact ⟨w, _, List.mem_cons_of_mem _ hw⟩
      case realRet =>
        subst he; obtain ⟨⟨p, a, hw⟩, _⟩ := h1; exact key _ hw rfl
      case initMpi =>
        subst he; obtain ⟨⟨w, r, hw, _⟩, _⟩ := h1; exact ⟨w, _, List.mem_cons_of_mem _ hw⟩
      case ret =>
        subst he; exact key _ h1.1 rfl
    · exact key _ hm he

/-! ## The invariant -/

def Frame.call : Frame → Option Call
  | .s0 c | .s1 c | .r0 c | .r1 c | .pre c | .z c | .zBody c | .k c | .body c | .post c _
  | .fin c _ => some c
  | .app | .err => none

def ids (st : List Frame) : List Nat := st.filterMap fun f => f.call.map Call.id

def NoReal (id : Nat) (tr : Hist) : Prop := ∀ u p a, (u, Ev.real id p a) ∉ tr
def NoRealRet (id : Nat) (tr : Hist) : Prop := ∀ u v, (u, Ev.realRet id v) ∉ tr
def NoRet (id : Nat) (tr : Hist) : Prop := ∀ u v, (u, Ev.ret id v) ∉ tr

/-- The addresses a call needs have been found. -/
def Ready (g : G) (c : Call) : Prop :=
  c.w.fn = .commRank → g.vars (sizeVar c.w.pmpi c.w.lang) ≠ 0

/-- How far a call has come. -/
def Stage (g : G) (t : Tid) : Frame → Prop
  | .s0 c | .s1 c => c.w.fn = .commRank ∧ NoReal c.id g.tr
  | .r0 c | .r1 c => Ready g c ∧ NoReal c.id g.tr
  | .pre c => Ready g c ∧ NoReal c.id g.tr ∧ g.vars (varOf c.w) ≠ 0
  | .z c => c.w.fn = .commRank ∧ Ready g c ∧ NoReal c.id g.tr ∧ g.vars (varOf c.w) ≠ 0
  | .zBody c | .k c => NoReal c.id g.tr ∧ g.vars (varOf c.w) ≠ 0 ∧
      (c.w.fn = .commRank → ∃ p comm, (t, Ev.size c.id p comm) ∈ g.tr)
  | .body c => (∃ p a, (t, Ev.real c.id p a) ∈ g.tr) ∧ NoRealRet c.id g.tr ∧ NoRet c.id g.tr
  | .post c v | .fin c v => (t, Ev.realRet c.id v) ∈ g.tr ∧ NoRet c.id g.tr
  | .app | .err => True

def Entered (g : G) (t : Tid) (f : Frame) : Prop :=
  ∀ c, f.call = some c →
    (t, Ev.enter c.id c.w c.args) ∈ g.tr ∧ c.args.length = arity c.w.fn c.w.lang

structure Inv (s : S) : Prop where
  hist : Always Through s.g.tr
  fresh : ∀ u id w a, (u, Ev.enter id w a) ∈ s.g.tr → id < s.g.nextId
  vars : ∀ x, s.g.vars x ≠ 0 → Found x.sym (s.g.vars x) s.g.tr
  frames : ∀ t, ∀ f ∈ s.th t, Entered s.g t f ∧ Stage s.g t f
  nodup : ∀ t, (ids (s.th t)).Nodup

theorem noReal_cons {id : Nat} {tr : Hist} {x : Tid × Ev} (h : NoReal id tr)
    (he : x.2.about ≠ some id) : NoReal id (x :: tr) := by
  intro u p a hm
  rcases List.mem_cons.1 hm with rfl | hm
  · exact he rfl
  · exact h u p a hm

theorem noRealRet_cons {id : Nat} {tr : Hist} {x : Tid × Ev} (h : NoRealRet id tr)
    (he : x.2.about ≠ some id) : NoRealRet id (x :: tr) := by
  intro u v hm
  rcases List.mem_cons.1 hm with rfl | hm
  · exact he rfl
  · exact h u v hm

theorem noRet_cons {id : Nat} {tr : Hist} {x : Tid × Ev} (h : NoRet id tr)
    (he : x.2.about ≠ some id) : NoRet id (x :: tr) := by
  intro u v hm
  rcases List.mem_cons.1 hm with rfl | hm
  · exact he rfl
  · exact h u v hm

/-- Steps of others do not matter. -/
theorem stage_mono {g g' : G} {t : Tid} {f : Frame} (h : Stage g t f)
    (hv : ∀ x, g.vars x ≠ 0 → g'.vars x ≠ 0)
    (htr : g'.tr = g.tr ∨ ∃ x : Tid × Ev, g'.tr = x :: g.tr ∧
      ∀ c, f.call = some c → x.2.about ≠ some c.id) : Stage g' t f := by
  have m : ∀ x, x ∈ g.tr → x ∈ g'.tr := by
    rcases htr with e | ⟨x, e, _⟩
    · rw [e]; exact fun _ => id
    · rw [e]; exact fun _ => List.mem_cons_of_mem _
  have n1 : ∀ c, f.call = some c → NoReal c.id g.tr → NoReal c.id g'.tr := by
    intro c hc hn
    rcases htr with e | ⟨x, e, he⟩
    · rw [e]; exact hn
    · rw [e]; exact noReal_cons hn (he c hc)
  have n2 : ∀ c, f.call = some c → NoRealRet c.id g.tr → NoRealRet c.id g'.tr := by
    intro c hc hn
    rcases htr with e | ⟨x, e, he⟩
    · rw [e]; exact hn
    · rw [e]; exact noRealRet_cons hn (he c hc)
  have n3 : ∀ c, f.call = some c → NoRet c.id g.tr → NoRet c.id g'.tr := by
    intro c hc hn
    rcases htr with e | ⟨x, e, he⟩
    · rw [e]; exact hn
    · rw [e]; exact noRet_cons hn (he c hc)
  cases f
  case app | err => trivial
  case s0 c | s1 c => exact ⟨h.1, n1 c rfl h.2⟩
  case r0 c | r1 c => exact ⟨fun hr => hv _ (h.1 hr), n1 c rfl h.2⟩
  case pre c => exact ⟨fun hr => hv _ (h.1 hr), n1 c rfl h.2.1, hv _ h.2.2⟩
  case z c => exact ⟨h.1, fun hr => hv _ (h.2.1 hr), n1 c rfl h.2.2.1, hv _ h.2.2.2⟩
  case zBody c | k c =>
    refine ⟨n1 c rfl h.1, hv _ h.2.1, fun hr => ?_⟩
    obtain ⟨p, comm, hm⟩ := h.2.2 hr
    exact ⟨p, comm, m _ hm⟩
  case body c =>
    obtain ⟨⟨p, a, hm⟩, h2, h3⟩ := h
    exact ⟨⟨p, a, m _ hm⟩, n2 c rfl h2, n3 c rfl h3⟩
  case post c v | fin c v => exact ⟨m _ h.1, n3 c rfl h.2⟩

theorem entered_mono {g g' : G} {t : Tid} {f : Frame} (h : Entered g t f)
    (m : ∀ x, x ∈ g.tr → x ∈ g'.tr) : Entered g' t f :=
  fun c hc => ⟨m _ (h c hc).1, (h c hc).2⟩

/-- What a step of a frame does: local part. -/
theorem fstep_local {static : Bool} {g : G} {t v : Nat} {f : Frame}
    (hal : Always Through g.tr) (hvars : ∀ x, g.vars x ≠ 0 → Found x.sym (g.vars x) g.tr)
    (he : Entered g t f) (hs : Stage g t f) :
    let r := fstep static g t v f
    Always Through r.1.tr ∧ (∀ x, r.1.vars x ≠ 0 → Found x.sym (r.1.vars x) r.1.tr) ∧
      r.1.nextId = g.nextId ∧ (∀ x, g.vars x ≠ 0 → r.1.vars x ≠ 0) ∧
      (r.1.tr = g.tr ∨ ∃ e, r.1.tr = (t, e) :: g.tr ∧ (∀ i w a, e ≠ .enter i w a) ∧
        ∀ id, e.about = some id → ∃ c, f.call = some c ∧ c.id = id) ∧
      (∀ f' ∈ r.2, Entered r.1 t f' ∧ Stage r.1 t f') ∧
      (∀ f' ∈ r.2, ∀ c, f'.call = some c → f.call = some c) ∧ (ids r.2).length ≤ 1 := by
  have quiet : ∀ e, (∀ id, e ≠ Ev.lookup id 0) →
      ∀ x, g.vars x ≠ 0 → Found x.sym (g.vars x) ((t, e) :: g.tr) := by
    intro e _ x hx
    obtain ⟨h0, u, hu⟩ := hvars x hx
    exact ⟨h0, u, List.mem_cons_of_mem _ hu⟩
  have set : ∀ (y : Var) (sym : Sym), y.sym = sym → v ≠ 0 → ∀ x,
      ((g.log t (.lookup sym v)).set y v).vars x ≠ 0 →
      Found x.sym (((g.log t (.lookup sym v)).set y v).vars x) ((t, .lookup sym v) :: g.tr) := by
    intro y sym hy hv x hx
    simp only [G.set, G.log] at hx ⊢
    split
    · rename_i e; subst e; subst hy
      exact ⟨hv, t, List.mem_cons_self⟩
    · rename_i e
      rw [if_neg e] at hx
      obtain ⟨h0, u, hu⟩ := hvars x hx
      exact ⟨h0, u, List.mem_cons_of_mem _ hu⟩
  have keep : ∀ (y : Var) (sym : Sym), v ≠ 0 → ∀ x, g.vars x ≠ 0 →
      ((g.log t (.lookup sym v)).set y v).vars x ≠ 0 := by
    intro y sym hv x hx
    simp only [G.set, G.log]
    split
    · exact hv
    · exact hx
  have here : ∀ (y : Var) (sym : Sym), v ≠ 0 →
      ((g.log t (.lookup sym v)).set y v).vars y ≠ 0 := by
    intro y sym hv
    simpa only [G.set, if_true] using hv
  have nr : ∀ id sym a, NoReal id g.tr → NoReal id ((t, Ev.lookup sym a) :: g.tr) :=
    fun id sym a h => noReal_cons h (by simp [Ev.about])
  -- a step that does not log
  have still : ∀ fs : List Frame, (∀ f' ∈ fs, f'.call = f.call ∨ f'.call = none) →
      (∀ f' ∈ fs, Stage g t f') → (ids fs).length ≤ 1 →
      Always Through g.tr ∧ (∀ x, g.vars x ≠ 0 → Found x.sym (g.vars x) g.tr) ∧
      g.nextId = g.nextId ∧ (∀ x, g.vars x ≠ 0 → g.vars x ≠ 0) ∧
      (g.tr = g.tr ∨ ∃ e, g.tr = (t, e) :: g.tr ∧ (∀ i w a, e ≠ .enter i w a) ∧
        ∀ id, e.about = some id → ∃ c, f.call = some c ∧ c.id = id) ∧
      (∀ f' ∈ fs, Entered g t f' ∧ Stage g t f') ∧
      (∀ f' ∈ fs, ∀ c, f'.call = some c → f.call = some c) ∧ (ids fs).length ≤ 1 := by
    intro fs hc hst hl
    refine ⟨hal, hvars, rfl, fun _ h => h, .inl rfl, ?_, ?_, hl⟩
    · intro f' hf'
      refine ⟨fun c hcc => ?_, hst f' hf'⟩
      rcases hc f' hf' with e | e
      · exact he c (e ▸ hcc)
      · rw [e] at hcc; cases hcc
    · intro f' hf' c hcc
      rcases hc f' hf' with e | e
      · exact e ▸ hcc
      · rw [e] at hcc; cases hcc
  -- a step that logs
  have logs : ∀ (e : Ev) (fs : List Frame), Through t e g.tr → (∀ i w a, e ≠ .enter i w a) →
      (∀ id, e.about = some id → ∃ c, f.call = some c ∧ c.id = id) →
      (∀ f' ∈ fs, f'.call = f.call ∨ f'.call = none) →
      (∀ f' ∈ fs, Stage (g.log t e) t f') → (ids fs).length ≤ 1 →
      Always Through (g.log t e).tr ∧
      (∀ x, (g.log t e).vars x ≠ 0 → Found x.sym ((g.log t e).vars x) (g.log t e).tr) ∧
      (g.log t e).nextId = g.nextId ∧ (∀ x, g.vars x ≠ 0 → (g.log t e).vars x ≠ 0) ∧
      ((g.log t e).tr = g.tr ∨ ∃ e', (g.log t e).tr = (t, e') :: g.tr ∧
        (∀ i w a, e' ≠ .enter i w a) ∧
        ∀ id, e'.about = some id → ∃ c, f.call = some c ∧ c.id = id) ∧
      (∀ f' ∈ fs, Entered (g.log t e) t f' ∧ Stage (g.log t e) t f') ∧
      (∀ f' ∈ fs, ∀ c, f'.call = some c → f.call = some c) ∧ (ids fs).length ≤ 1 := by
    intro e fs hth hen hab hc hst hl
    refine ⟨⟨hth, hal⟩, ?_, rfl, fun _ h => h, .inr ⟨e, rfl, hen, hab⟩, ?_, ?_, hl⟩
    · intro x hx
      obtain ⟨h0, u, hu⟩ := hvars x hx
      exact ⟨h0, u, List.mem_cons_of_mem _ hu⟩
    · intro f' hf'
      refine ⟨fun c hcc => ?_, hst f' hf'⟩
      rcases hc f' hf' with e | e
      · exact ⟨List.mem_cons_of_mem _ (he c (e ▸ hcc)).1, (he c (e ▸ hcc)).2⟩
      · rw [e] at hcc; cases hcc
    · intro f' hf' c hcc
      rcases hc f' hf' with e | e
      · exact e ▸ hcc
      · rw [e] at hcc; cases hcc
  cases f
  case app => exact still [] (by simp) (by simp) (by simp [ids])
  case err => exact still [.err] (by simp) (by simp [Stage]) (by simp [ids, Frame.call])
  case s0 c =>
    simp only [fstep]
    split
    · exact still [.s1 c] (by simp [Frame.call]) (by simp only [List.mem_singleton, forall_eq]; exact hs) (by simp [ids, Frame.call])
    · rename_i h
      refine still [.r0 c] (by simp [Frame.call]) ?_ (by simp [ids, Frame.call])
      simp only [List.mem_singleton, forall_eq]
      refine ⟨fun _ h0 => h ?_, hs.2⟩
      simp [h0]
  case s1 c =>
    simp only [fstep]
    split
    · exact still [.err] (by simp [Frame.call]) (by simp [Stage]) (by simp [ids, Frame.call])
    · rename_i hv
      have hsy := (sizeVar_sym c.w).trans (sizeSym_own c.w).symm
      refine ⟨⟨trivial, hal⟩, set _ _ hsy hv, rfl, keep _ _ hv,
        .inr ⟨_, rfl, by simp, by simp [Ev.about]⟩, ?_, by simp [Frame.call], by simp [ids, Frame.call]⟩
      simp only [List.mem_singleton, forall_eq]
      refine ⟨fun c' hc => ?_, fun _ => here _ _ hv, nr _ _ _ hs.2⟩
      cases hc
      exact ⟨List.mem_cons_of_mem _ (he c rfl).1, (he c rfl).2⟩
  case r0 c =>
    simp only [fstep]
    split
    · exact still [.r1 c] (by simp [Frame.call]) (by simp only [List.mem_singleton, forall_eq]; exact hs) (by simp [ids, Frame.call])
    · rename_i h
      refine still [.pre c] (by simp [Frame.call]) ?_ (by simp [ids, Frame.call])
      simp only [List.mem_singleton, forall_eq]
      refine ⟨hs.1, hs.2, fun h0 => h ?_⟩
      simp [h0]
  case r1 c =>
    simp only [fstep]
    split
    · exact still [.err] (by simp [Frame.call]) (by simp [Stage]) (by simp [ids, Frame.call])
    · rename_i hv
      have hsy := (varOf_sym c.w).trans (symOf_own c.w).symm
      refine ⟨⟨trivial, hal⟩, set _ _ hsy hv, rfl, keep _ _ hv,
        .inr ⟨_, rfl, by simp, by simp [Ev.about]⟩, ?_, by simp [Frame.call], by simp [ids, Frame.call]⟩
      simp only [List.mem_singleton, forall_eq]
      refine ⟨fun c' hc => ?_, fun hr => keep _ _ hv _ (hs.1 hr), nr _ _ _ hs.2, here _ _ hv⟩
      cases hc
      exact ⟨List.mem_cons_of_mem _ (he c rfl).1, (he c rfl).2⟩
  case pre c =>
    simp only [fstep]
    split
    · rename_i h
      refine still [.z c] (by simp [Frame.call]) ?_ (by simp [ids, Frame.call])
      simp only [List.mem_singleton, forall_eq]
      exact ⟨h, hs⟩
    · rename_i h
      have : Stage g t (.k c) := ⟨hs.2.1, hs.2.2, fun hr => absurd hr h⟩
      split
      · exact still [.k c] (by simp [Frame.call]) (by simpa using this) (by simp [ids, Frame.call])
      · refine still [.app, .k c] (by simp [Frame.call]) ?_ (by simp [ids, Frame.call])
        intro f' hf'
        rcases List.mem_cons.1 hf' with rfl | hf'
        · trivial
        · rw [List.mem_singleton.1 hf']; exact this
  case z c =>
    obtain ⟨h1, h2⟩ := he c rfl
    have hne : c.args.head? = some (c.args.headD 0) := by
      have : c.args.length ≠ 0 := by
        rw [h2, hs.1]; cases c.w.lang <;> simp [arity]
      cases ha : c.args with
      | nil => rw [ha] at this; exact absurd rfl this
      | cons x xs => rfl
    refine logs _ [.zBody c] ⟨⟨c.w, c.args, h1, hs.1, hne, ?_⟩, hs.2.2.1⟩ (by simp)
      (fun id hid => ⟨c, rfl, by simpa [Ev.about] using hid⟩) (by simp [Frame.call]) ?_
      (by simp [ids, Frame.call])
    · have := hvars _ (hs.2.1 hs.1)
      rw [sizeVar_sym] at this; exact this
    · simp only [List.mem_singleton, forall_eq]
      refine ⟨?_, hs.2.2.2, fun _ => ⟨_, _, List.mem_cons_self⟩⟩
      intro u p a hm
      rcases List.mem_cons.1 hm with e | hm
      · cases e
      · exact hs.2.2.1 u p a hm
  case zBody c =>
    exact still [.k c] (by simp [Frame.call]) (by simp only [List.mem_singleton, forall_eq]; exact hs) (by simp [ids, Frame.call])
  case k c =>
    obtain ⟨h1, h2⟩ := he c rfl
    have h3 : NoRealRet c.id g.tr := by
      intro u r hm
      obtain ⟨old, ⟨⟨p, a, h⟩, _⟩, hsub⟩ := always_mem hal hm
      exact hs.1 _ _ _ (hsub _ h)
    have h4 : NoRet c.id g.tr := by
      intro u r hm
      obtain ⟨old, h, hsub⟩ := always_mem hal hm
      exact h3 _ _ (hsub _ h.1)
    refine logs _ [.body c] ⟨⟨c.w, ?_, ?_, hs.2.2⟩, hs.1⟩ (by simp)
      (fun id hid => ⟨c, rfl, by simpa [Ev.about] using hid⟩) (by simp [Frame.call]) ?_
      (by simp [ids, Frame.call])
    · rw [passed_eq h2]; exact h1
    · have := hvars _ hs.2.1
      rw [varOf_sym] at this; exact this
    · simp only [List.mem_singleton, forall_eq]
      refine ⟨⟨_, _, List.mem_cons_self⟩, ?_, ?_⟩
      · intro u r hm
        rcases List.mem_cons.1 hm with e | hm
        · cases e
        · exact h3 u r hm
      · intro u r hm
        rcases List.mem_cons.1 hm with e | hm
        · cases e
        · exact h4 u r hm
  case body c =>
    refine logs _ [.post c v] ⟨hs.1, hs.2.1⟩ (by simp)
      (fun id hid => ⟨c, rfl, by simpa [Ev.about] using hid⟩) (by simp [Frame.call]) ?_
      (by simp [ids, Frame.call])
    simp only [List.mem_singleton, forall_eq]
    refine ⟨List.mem_cons_self, ?_⟩
    intro u r hm
    rcases List.mem_cons.1 hm with e | hm
    · cases e
    · exact hs.2.2 u r hm
  case post c r =>
    obtain ⟨h1, h2⟩ := he c rfl
    have stillApp := still [.app, .fin c r] (by simp [Frame.call]) (by
      intro f' hf'
      rcases List.mem_cons.1 hf' with rfl | hf'
      · trivial
      · rw [List.mem_singleton.1 hf']; exact hs) (by simp [ids, Frame.call])
    have initApp : ∀ argc argv rest, c.args = argc :: argv :: rest → c.w.lang = .c →
        (c.w.fn = .init ∨ c.w.fn = .initThread) → _ := fun argc argv rest ha hl hf =>
      logs (.initMpi c.id argc argv) [.app, .fin c r]
        ⟨⟨c.w, rest, ha ▸ h1, hl, hf⟩, ⟨r, hs.1⟩, hs.2⟩ (by simp)
        (fun id hid => ⟨c, rfl, by simpa [Ev.about] using hid⟩) (by simp [Frame.call]) (by
          intro f' hf'
          rcases List.mem_cons.1 hf' with rfl | hf'
          · trivial
          · rw [List.mem_singleton.1 hf']
            refine ⟨List.mem_cons_of_mem _ hs.1, ?_⟩
            intro u r hm
            rcases List.mem_cons.1 hm with e | hm
            · cases e
            · exact hs.2 u r hm) (by simp [ids, Frame.call])
    simp only [fstep]
    split
    · exact still [.fin c r] (by simp [Frame.call]) (by simp only [List.mem_singleton, forall_eq]; exact hs) (by simp [ids, Frame.call])
    · split
      · exact initApp _ _ _ ‹_› ‹_› (.inl ‹_›)
      · exact initApp _ _ _ ‹_› ‹_› (.inr ‹_›)
      · exact stillApp
  case fin c r =>
    exact logs _ [] ⟨hs.1, hs.2⟩ (by simp)
      (fun id hid => ⟨c, rfl, by simpa [Ev.about] using hid⟩) (by simp) (by simp) (by simp [ids])

theorem ids_cons (f : Frame) (st : List Frame) :
    ids (f :: st) = (match f.call with | some c => [c.id] | none => []) ++ ids st := by
  simp only [ids, List.filterMap_cons]
  cases f.call <;> rfl

theorem mem_ids {st : List Frame} {n : Nat} : n ∈ ids st ↔ ∃ f ∈ st, ∃ c, f.call = some c ∧ c.id = n := by
  simp [ids, List.mem_filterMap]

theorem inv {static : Bool} {s : S} (h : Reach static s) : Inv s := by
  induction h with
  | init =>
    refine ⟨trivial, (by intro u id w a h; cases h), fun x hx => absurd rfl hx, ?_, ?_⟩
    · intro t f hf
      simp only [List.mem_singleton] at hf
      subst hf
      exact ⟨(by intro c hc; cases hc), trivial⟩
    · intro t; simp [ids, Frame.call]
  | @step s s' l _ hs ih =>
    simp only [next] at hs
    split at hs
    · cases hs
    rename_i f rest hst
    have hmem : ∀ x ∈ f :: rest, Entered s.g l.t x ∧ Stage s.g l.t x := by
      rw [← hst]; exact ih.frames l.t
    have hnd : (ids (f :: rest)).Nodup := by rw [← hst]; exact ih.nodup l.t
    split at hs
    · rename_i v _
      simp only [Option.some.injEq] at hs
      subst hs
      obtain ⟨h1, h2, h3, h4, h5, h6, h7, h8⟩ := fstep_local (static := static) (v := v) ih.hist
        ih.vars (hmem f List.mem_cons_self).1 (hmem f List.mem_cons_self).2
      have m : ∀ x, x ∈ s.g.tr → x ∈ (fstep static s.g l.t v f).1.tr := by
        rcases h5 with e | ⟨x, e, _⟩
        · rw [e]; exact fun _ => id
        · rw [e]; exact fun _ => List.mem_cons_of_mem _
      -- frames of other calls
      have other : ∀ t f', Entered s.g t f' ∧ Stage s.g t f' →
          (∀ c c', f.call = some c → f'.call = some c' → c.id ≠ c'.id) →
          Entered (fstep static s.g l.t v f).1 t f' ∧ Stage (fstep static s.g l.t v f).1 t f' := by
        intro t f' hf' hne
        refine ⟨entered_mono hf'.1 m, stage_mono hf'.2 h4 ?_⟩
        rcases h5 with e | ⟨x, e, _, hab⟩
        · exact .inl e
        · refine .inr ⟨_, e, fun c' hc' he => ?_⟩
          obtain ⟨c, hc, hid⟩ := hab _ he
          exact hne c c' hc hc' hid
      refine ⟨h1, ?_, h2, ?_, ?_⟩
      · intro u id w a hm
        simp only [h3]
        rcases h5 with e | ⟨x, e, hx, _⟩
        · exact ih.fresh u id w a (e ▸ hm)
        · simp only [e] at hm
          rcases List.mem_cons.1 hm with e2 | hm
          · cases e2; exact absurd rfl (hx _ _ _)
          · exact ih.fresh u id w a hm
      · intro t f' hf'
        simp only at hf'
        split at hf'
        · rename_i e; subst e
          rcases List.mem_append.1 hf' with hf' | hf'
          · exact h6 f' hf'
          · refine other _ _ (hmem f' (List.mem_cons_of_mem _ hf')) ?_
            intro c c' hc hc' he
            rw [ids_cons, hc] at hnd
            simp only [List.singleton_append, List.nodup_cons] at hnd
            exact hnd.1 (mem_ids.2 ⟨f', hf', c', hc', he.symm⟩)
        · rename_i hne
          refine other _ _ (ih.frames t f' hf') ?_
          intro c c' hc hc' he
          have e1 := ((hmem f List.mem_cons_self).1 c hc).1
          have e2 := ((ih.frames t f' hf').1 c' hc').1
          rw [he] at e1
          exact hne (enter_unique ih.hist e2 e1).1
      · intro t
        simp only
        split
        · simp only [ids, List.filterMap_append]
          have hnd' : (ids rest).Nodup := by
            rw [ids_cons] at hnd
            exact (List.nodup_append.1 hnd).2.1
          refine List.nodup_append.2 ⟨?_, hnd', ?_⟩
          · have : ∀ l : List Nat, l.length ≤ 1 → l.Nodup := by
              intro l hl
              match l, hl with
              | [], _ => simp
              | [_], _ => simp
            exact this _ h8
          · intro a ha b hb hab
            subst hab
            obtain ⟨f', hf', c, hc, hid⟩ := mem_ids.1 ha
            have hfc := h7 f' hf' c hc
            rw [ids_cons, hfc] at hnd
            simp only [List.singleton_append, List.nodup_cons] at hnd
            exact hnd.1 (hid ▸ hb)
        · exact ih.nodup t
    · rename_i w args _
      split at hs
      · rename_i hc
        simp only [Option.some.injEq] at hs
        simp only [Bool.and_eq_true, beq_iff_eq] at hc
        subst hs
        have hno : ∀ u e, (u, e) ∈ s.g.tr → e.about ≠ some s.g.nextId := by
          intro u e hm he
          obtain ⟨w, a, hw⟩ := about_enter ih.hist hm he
          exact Nat.lt_irrefl _ (ih.fresh _ _ _ _ hw)
        have hnr : NoReal s.g.nextId ((l.t, Ev.enter s.g.nextId w args) :: s.g.tr) :=
          noReal_cons (fun u p a hm => hno u _ hm rfl) (by simp [Ev.about])
        have old : ∀ t f', Entered s.g t f' ∧ Stage s.g t f' →
            Entered { s.g.log l.t (.enter s.g.nextId w args) with nextId := s.g.nextId + 1 } t f' ∧
            Stage { s.g.log l.t (.enter s.g.nextId w args) with nextId := s.g.nextId + 1 } t f' := by
          intro t f' hf'
          exact ⟨entered_mono hf'.1 (fun _ => List.mem_cons_of_mem _),
            stage_mono hf'.2 (fun _ h => h) (.inr ⟨_, rfl, fun c _ => by simp [Ev.about]⟩)⟩
        refine ⟨⟨?_, ih.hist⟩, ?_, ?_, ?_, ?_⟩
        · intro u w a hm
          exact Nat.lt_irrefl _ (ih.fresh _ _ _ _ hm)
        · intro u id w a hm
          rcases List.mem_cons.1 hm with e | hm
          · cases e; exact Nat.lt_succ_self _
          · exact Nat.lt_succ_of_lt (ih.fresh _ _ _ _ hm)
        · intro x hx
          obtain ⟨h0, u, hu⟩ := ih.vars x hx
          exact ⟨h0, u, List.mem_cons_of_mem _ hu⟩
        · intro t f' hf'
          simp only at hf'
          split at hf'
          · rename_i e; subst e
            rcases List.mem_cons.1 hf' with e | hf'
            · subst e
              split
              · rename_i hw
                refine ⟨fun c hcc => ?_, hw, hnr⟩
                cases hcc
                exact ⟨List.mem_cons_self, hc.2⟩
              · rename_i hw
                refine ⟨fun c hcc => ?_, fun h => absurd h hw, hnr⟩
                cases hcc
                exact ⟨List.mem_cons_self, hc.2⟩
            · exact old _ _ (hmem f' hf')
          · exact old _ _ (ih.frames t f' hf')
        · intro t
          simp only
          split
          · rw [ids_cons]
            have hcall : (if w.fn = .commRank then Frame.s0 ⟨s.g.nextId, w, args⟩ else
                .r0 ⟨s.g.nextId, w, args⟩).call = some ⟨s.g.nextId, w, args⟩ := by
              split <;> rfl
            rw [hcall]
            simp only [List.singleton_append, List.nodup_cons]
            refine ⟨fun hm => ?_, hnd⟩
            obtain ⟨f', hf', c, hcc, hid⟩ := mem_ids.1 hm
            have := ih.fresh _ _ _ _ ((hmem f' hf').1 c hcc).1
            omega
          · exact ih.nodup t
      · cases hs
    · simp only [Option.some.injEq] at hs
      subst hs
      refine ⟨ih.hist, ih.fresh, ih.vars, ?_, ?_⟩
      · intro t f' hf'
        simp only at hf'
        split at hf'
        · rename_i e; subst e
          rcases List.mem_cons.1 hf' with rfl | hf'
          · exact ⟨(by intro c hc; cases hc), trivial⟩
          · exact hmem f' hf'
        · exact ih.frames t f' hf'
      · intro t
        simp only
        split
        · exact hnd
        · exact ih.nodup t
    · rename_i n _
      simp only [Option.some.injEq] at hs
      subst hs
      refine ⟨ih.hist, ih.fresh, ih.vars, ?_, ?_⟩
      · intro t f' hf'
        simp only at hf'
        split at hf'
        · rename_i e; subst e
          exact hmem f' (List.mem_of_mem_drop hf')
        · exact ih.frames t f' hf'
      · intro t
        simp only
        split
        · exact hnd.sublist ((List.drop_sublist n (f :: rest)).filterMap _)
        · exact ih.nodup t
    · split at hs
      · simp only [Option.some.injEq] at hs
        subst hs
        refine ⟨ih.hist, ih.fresh, ih.vars, ?_, ?_⟩
        · intro t f' hf'
          simp only at hf'
          split at hf'
          · rename_i e; subst e; exact hmem f' hf'
          · cases hf'
        · intro t
          simp only
          split
          · exact hnd
          · simp [ids]
      · cases hs

end Libmonitor.Wrap
