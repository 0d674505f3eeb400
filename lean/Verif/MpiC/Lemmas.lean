import Verif.MpiC.Spec
/-!
# The counters of the MPI wrappers in several threads
-/

namespace Libmonitor.MpiC

/-- Number of open calls of kind `k` in a stack. -/
def ncalls (k : Kind) (st : List Frame) : Nat := st.countP (Frame.isCall k)

/-- The phase of a call, from its frame and the fact whether it is outermost. -/
def ph (outer : Bool) : Frame → Phase
  | .load _ _ up | .store _ _ up _ | .ret _ _ up | .cmp _ up | .setMax _ up _ =>
    if up then .entered else if outer then .after else .returned
  | .first .. => .entered
  | .real .. => if outer then .before else .entered
  | .rret .. => .inside
  | _ => .returned

def phs (k : Kind) : List Frame → List Phase
  | [] => []
  | f :: st => if f.isCall k then ph (phs k st).isEmpty f :: phs k st else phs k st

/-- What a call contributes to the counter. -/
def wt (k : Kind) (f : Frame) : Int :=
  if f.isCall k then
    match f with
    | .load _ _ up | .store _ _ up _ => if up then 0 else 1
    | .cmp _ up | .setMax _ up _ | .ret _ _ up => if up then 1 else 0
    | _ => 1
  else 0

def wts (k : Kind) : List Frame → Int
  | [] => 0
  | f :: st => wt k f + wts k st

/-- The count that a wrapper got is its depth. -/
def Frame.cntOk (d : Int) : Frame → Prop
  | .first _ _ c | .real _ _ c | .rret _ _ c | .second _ _ c => c = d
  | _ => True

def SI (k : Kind) : List Frame → Prop
  | [] => True
  | f :: st => (f.isCall k = true → (∀ h ∈ st, h.counting k = false) ∧ f.cntOk (ncalls k st + 1)) ∧ SI k st

def Frame.valOk (k : Kind) (c : Int) : Frame → Prop
  | .store k' _ _ v => k' = k → v = c
  | _ => True

theorem phs_len (k : Kind) (st : List Frame) : (phs k st).length = ncalls k st := by
  induction st with
  | nil => rfl
  | cons f st ih =>
    simp only [phs, ncalls, List.countP_cons] at ih ⊢
    cases f.isCall k <;> simp [ih]

theorem phs_nil {k : Kind} {st : List Frame} : phs k st = [] ↔ ncalls k st = 0 := by
  rw [← phs_len, List.length_eq_zero_iff]

theorem calls_none {k : Kind} {st : List Frame} : ncalls k st = 0 ↔ ∀ f ∈ st, f.isCall k = false := by
  simp [ncalls, List.countP_eq_zero]

theorem counting_call {k : Kind} {f : Frame} (h : f.counting k = true) : f.isCall k = true := by
  cases f <;> simp_all [Frame.counting, Frame.isCall]

theorem wts_calls {k : Kind} {st : List Frame} (h : ∀ f ∈ st, f.counting k = false) :
    wts k st = ncalls k st := by
  induction st with
  | nil => rfl
  | cons f st ih =>
    have ih := ih fun g hg => h g (List.mem_cons_of_mem _ hg)
    have hf := h f List.mem_cons_self
    simp only [wts, ih, ncalls, List.countP_cons]
    cases hc : f.isCall k
    · simp [wt, hc]
    · have : wt k f = 1 := by
        cases f <;> simp_all [Frame.counting, Frame.isCall, wt]
      rw [this]; simp; omega

theorem wts_zero {k : Kind} {st : List Frame} (h : ncalls k st = 0) : wts k st = 0 := by
  rw [wts_calls fun f hf => ?_, h]; · rfl
  cases hc : f.counting k
  · rfl
  · have := (calls_none.1 h) f hf; rw [counting_call hc] at this; cases this

structure Inv (k : Kind) (s : S) : Prop where
  phase : ∀ t, phases k t s.g.tr = some (phs k (s.th t))
  shape : ∀ t, SI k (s.th t)
  val : ∀ t, ∀ f ∈ s.th t, f.valOk k (s.g.count k)
  own : ∃ o, (∀ u, u ≠ o → ncalls k (s.th u) = 0) ∧ s.g.count k = wts k (s.th o)

/-- A step of thread `t` that turns its stack into `st`. -/
theorem inv_put {k : Kind} {s : S} {t : Tid} {g : G} {st : List Frame} (h : Inv k s)
    (hp : phases k t g.tr = some (phs k st)) (ho : ∀ u, u ≠ t → phases k u g.tr = phases k u s.g.tr)
    (hs : SI k st) (hv : ∀ f ∈ st, f.valOk k (g.count k))
    (hc : (∀ u, u ≠ t → ncalls k (s.th u) = 0) ∧ g.count k = wts k st ∨
      g.count k = s.g.count k ∧ wts k st = wts k (s.th t) ∧ (ncalls k st = ncalls k (s.th t))) :
    Inv k ⟨g, fun u => if u = t then st else s.th u⟩ := by
  constructor
  · intro u
    by_cases e : u = t
    · simp [e, hp]
    · simp [e, ho u e, h.phase u]
  · intro u
    by_cases e : u = t
    · simpa [e] using hs
    · simpa [e] using h.shape u
  · intro u f hf
    by_cases e : u = t
    · simp only [e, if_true] at hf; exact hv f hf
    · simp only [e, if_false] at hf
      rcases hc with ⟨hc, _⟩ | ⟨hc, _⟩
      · have := (calls_none.1 (hc u e)) f hf
        cases f <;> try trivial
        intro e2; subst e2; simp [Frame.isCall] at this
      · show f.valOk k (g.count k); rw [hc]; exact h.val u f hf
  · rcases hc with ⟨h1, h2⟩ | ⟨h1, h2, h3⟩
    · exact ⟨t, fun u e => by simpa [e] using h1 u e, by simpa using h2⟩
    · obtain ⟨o, ho1, ho2⟩ := h.own
      refine ⟨o, fun u e => ?_, ?_⟩
      · by_cases e2 : u = t
        · subst e2; simpa [h3] using ho1 u e
        · simpa [e2] using ho1 u e
      · by_cases e2 : o = t
        · subst e2; simp [h1, h2, ho2]
        · simp [e2, h1, ho2]

/-- A thread with an open call is the only one. -/
theorem inv_alone {k : Kind} {s : S} {t : Tid} (h : Inv k s) (hc : ncalls k (s.th t) ≠ 0) :
    (∀ u, u ≠ t → ncalls k (s.th u) = 0) ∧ s.g.count k = wts k (s.th t) := by
  obtain ⟨o, h1, h2⟩ := h.own
  have e : t = o := Classical.byContradiction fun e => hc (h1 t e)
  subst e; exact ⟨h1, h2⟩

/-- Frames that are no calls of kind `k` do not matter. -/
theorem phs_skip {k : Kind} {fs st : List Frame} (h : ∀ f ∈ fs, f.isCall k = false) :
    phs k (fs ++ st) = phs k st ∧ ncalls k (fs ++ st) = ncalls k st ∧ wts k (fs ++ st) = wts k st ∧
      (SI k (fs ++ st) ↔ SI k st) := by
  induction fs with
  | nil => simp
  | cons f fs ih =>
    have hf := h f List.mem_cons_self
    obtain ⟨h1, h2, h3, h4⟩ := ih fun g hg => h g (List.mem_cons_of_mem _ hg)
    refine ⟨?_, ?_, ?_, ?_⟩
    · simp [phs, hf, h1]
    · rw [← h2]; simp [ncalls, hf]
    · simp [wts, wt, hf, h3]
    · simp [SI, hf, h4]

theorem valOk_skip {k : Kind} {c : Int} {f : Frame} (h : f.isCall k = false) : f.valOk k c := by
  cases f <;> try trivial
  intro e; subst e; simp [Frame.isCall] at h

/-- An event of thread `t` that is about no call of kind `k`. -/
def Ev.other (k : Kind) : Ev → Bool
  | .enter k' _ | .first k' | .real k' _ | .realRet k' _ | .second k' | .leave k' _ => k' ≠ k
  | _ => true

theorem grammar_other {k : Kind} {e : Ev} (h : e.other k = true) (ps : List Phase) :
    grammar k ps e = some ps := by
  cases e <;> simp_all [Ev.other, grammar]

theorem phases_ne {k : Kind} {t u : Tid} {e : Ev} {tr : List (Tid × Ev)} (h : u ≠ t) :
    phases k u ((t, e) :: tr) = phases k u tr := by
  simp [phases, Ne.symm h]

theorem phases_eq {k : Kind} {t : Tid} {e : Ev} {tr : List (Tid × Ev)} {ps : List Phase}
    (h : phases k t tr = some ps) : phases k t ((t, e) :: tr) = grammar k ps e := by
  simp [phases, h]

/-- A step that does not concern kind `k`: the frames `old` on top are replaced by `new`. -/
theorem inv_skip {k : Kind} {s : S} {t : Tid} {g : G} {old new rest : List Frame} (h : Inv k s)
    (hst : s.th t = old ++ rest) (ho : ∀ f ∈ old, f.isCall k = false)
    (hn : ∀ f ∈ new, f.isCall k = false) (hc : g.count k = s.g.count k)
    (ht : g.tr = s.g.tr ∨ ∃ e, e.other k = true ∧ g.tr = (t, e) :: s.g.tr) :
    Inv k ⟨g, fun u => if u = t then new ++ rest else s.th u⟩ := by
  obtain ⟨a1, a2, a3, a4⟩ := phs_skip (st := rest) ho
  obtain ⟨b1, b2, b3, b4⟩ := phs_skip (st := rest) hn
  have hp := h.phase t
  have hs := h.shape t
  rw [hst] at hp hs
  refine inv_put h ?_ ?_ (b4.2 (a4.1 hs)) ?_ (.inr ⟨hc, ?_, ?_⟩)
  · rcases ht with e | ⟨e, he, ht⟩
    · rw [e, b1, hp, a1]
    · rw [ht, phases_eq hp, grammar_other he, a1, b1]
  · intro u hu
    rcases ht with e | ⟨e, _, ht⟩
    · rw [e]
    · rw [ht, phases_ne hu]
  · intro f hf
    rcases List.mem_append.1 hf with hf | hf
    · exact valOk_skip (hn f hf)
    · rw [hc]; exact h.val t f (by rw [hst]; exact List.mem_append_right _ hf)
  · rw [hst, a3, b3]
  · rw [hst, a2, b2]

/-- A step of the innermost call when it is of kind `k`. -/
theorem inv_call {k : Kind} {s : S} {t : Tid} {g : G} {f f' : Frame} {fs rest : List Frame}
    (h : Inv k s) (hst : s.th t = f :: rest) (hf : f.isCall k = true)
    (hfs : ∀ x ∈ fs, x.isCall k = false) (hf' : f'.isCall k = true)
    (hp : ∀ ps, ps = phs k rest → phases k t g.tr = some (ph ps.isEmpty f' :: ps))
    (hot : ∀ u, u ≠ t → phases k u g.tr = phases k u s.g.tr)
    (hok : f'.cntOk (ncalls k rest + 1)) (hv : f'.valOk k (g.count k))
    (hw : g.count k = s.g.count k - wt k f + wt k f')
    (hkeep : g.count k = s.g.count k ∨ f.counting k = true) :
    Inv k ⟨g, fun u => if u = t then fs ++ f' :: rest else s.th u⟩ := by
  have hal := inv_alone h (t := t) (by rw [hst]; simp [ncalls, hf])
  have hs := h.shape t
  rw [hst] at hs
  obtain ⟨b1, b2, b3, b4⟩ := phs_skip (st := f' :: rest) hfs
  have hc := hal.2
  rw [hst] at hc
  simp only [wts] at hc
  refine inv_put h ?_ hot (b4.2 ⟨fun _ => ⟨(hs.1 hf).1, hok⟩, hs.2⟩) ?_ (.inl ⟨hal.1, ?_⟩)
  · rw [b1, hp _ rfl]; simp [phs, hf']
  · intro x hx
    rcases List.mem_append.1 hx with hx | hx
    · exact valOk_skip (hfs x hx)
    · rcases List.mem_cons.1 hx with e | hx
      · subst e; exact hv
      · rcases hkeep with e | _
        · rw [e]; exact h.val t x (by rw [hst]; exact List.mem_cons_of_mem _ hx)
        · have hn := (hs.1 hf).1 x hx
          cases x <;> try trivial
          intro e; subst e; simp [Frame.counting] at hn
  · rw [b3]; simp only [wts]; omega

/-- The innermost call of kind `k` returns. -/
theorem inv_pop {k : Kind} {s : S} {t : Tid} {g : G} {w : Nat} {rest : List Frame}
    (h : Inv k s) (hst : s.th t = .ret k w false :: rest)
    (htr : g.tr = (t, .leave k w) :: s.g.tr) (hc : g.count k = s.g.count k) :
    Inv k ⟨g, fun u => if u = t then rest else s.th u⟩ := by
  have hf : (Frame.ret k w false).isCall k = true := by simp [Frame.isCall]
  have hal := inv_alone h (t := t) (by rw [hst]; simp [ncalls, hf])
  have hs := h.shape t
  rw [hst] at hs
  have hp := h.phase t
  rw [hst] at hp
  have hw := hal.2
  rw [hst] at hw
  refine inv_put h ?_ (fun u hu => by rw [htr, phases_ne hu]) hs.2 ?_ (.inl ⟨hal.1, ?_⟩)
  · rw [htr, phases_eq hp]
    simp only [phs, hf, if_true, ph, Bool.false_eq_true, if_false]
    cases hr : phs k rest <;> simp [grammar]
  · intro x hx
    rw [hc]
    exact h.val t x (by rw [hst]; exact List.mem_cons_of_mem _ hx)
  · rw [hc, hw]; simp [wts, wt, Frame.isCall]

theorem count_set (g : G) (v : Int) (k k' : Kind) :
    (g.setCount v k').count k = if k = k' then v else g.count k := by
  cases k <;> cases k' <;> rfl

@[simp] theorem tr_set (g : G) (v : Int) (k' : Kind) : (g.setCount v k').tr = g.tr := by
  cases k' <;> rfl

@[simp] theorem count_log (g : G) (t : Tid) (e : Ev) (k : Kind) : (g.log t e).count k = g.count k := by
  cases k <;> rfl

theorem count_max (g : G) (c : Int) (k : Kind) : ({ g with maxInit := c } : G).count k = g.count k := by
  cases k <;> rfl

/-- The counter seen by the innermost call. -/
theorem count_top {k : Kind} {s : S} {t : Tid} {f : Frame} {rest : List Frame} (h : Inv k s)
    (hst : s.th t = f :: rest) (hf : f.isCall k = true) :
    s.g.count k = wt k f + ncalls k rest := by
  have hal := inv_alone h (t := t) (by rw [hst]; simp [ncalls, hf])
  have hs := h.shape t
  rw [hst] at hs
  rw [hal.2, hst]; simp only [wts]; rw [wts_calls (hs.1 hf).1]

/-- A step of a call that is not of kind `k`. -/
theorem fstep_other {k : Kind} {g g' : G} {t : Tid} {a : Option Int} {b : Int} {f : Frame}
    {fs : List Frame} (hc : f.isCall k = false) (hf : fstep g t a b f = some (g', fs)) :
    (fs.all fun x => !x.isCall k) = true ∧ g'.count k = g.count k ∧
      (g'.tr = g.tr ∨ ∃ e, e.other k = true ∧ g'.tr = (t, e) :: g.tr) := by
  cases f with
  | app => simp [fstep] at hf
  | store k' w up v =>
    simp only [Frame.isCall, decide_eq_false_iff_not] at hc
    simp only [fstep, Option.some.injEq, Prod.mk.injEq] at hf
    obtain ⟨rfl, rfl⟩ := hf
    refine ⟨?_, by rw [count_set, if_neg (Ne.symm hc)], .inl (tr_set ..)⟩
    cases k' <;> cases k <;> simp_all [Frame.isCall]
  | _ =>
    simp only [Frame.isCall, decide_eq_false_iff_not] at hc
    simp only [fstep] at hf
    (repeat' split at hf) <;> simp only [Option.some.injEq, Prod.mk.injEq] at hf <;>
      obtain ⟨rfl, rfl⟩ := hf <;>
      refine ⟨?_, by cases k <;> rfl, ?_⟩ <;>
      first
      | exact .inl rfl
      | (refine .inr ⟨_, ?_, rfl⟩; simp [Ev.other, hc]; done)
      | (cases k <;> simp_all [Frame.isCall] <;> done)
      | (split <;> cases k <;> simp_all [Frame.isCall] <;> done)

theorem inv_go {k : Kind} {s : S} {t : Tid} {a : Option Int} {b : Int} {f : Frame}
    {rest fs : List Frame} {g : G} (h : Inv k s) (hst : s.th t = f :: rest)
    (hf : fstep s.g t a b f = some (g, fs)) :
    Inv k ⟨g, fun u => if u = t then fs ++ rest else s.th u⟩ := by
  cases hc : f.isCall k with
  | false =>
    obtain ⟨h1, h2, h3⟩ := fstep_other hc hf
    exact inv_skip (old := [f]) h (by simpa using hst) (by simpa using hc)
      (by simpa using h1) h2 h3
  | true =>
    have hp := h.phase t
    have hs := h.shape t
    rw [hst] at hp hs
    have hok := (hs.1 hc).2
    have htop := count_top h hst hc
    simp only [phs, hc, if_true] at hp
    cases f <;> simp only [Frame.isCall, decide_eq_true_eq, Bool.false_eq_true] at hc
    all_goals subst hc
    case load k w up =>
      simp only [fstep, Option.some.injEq, Prod.mk.injEq] at hf
      obtain ⟨rfl, rfl⟩ := hf
      exact inv_call (fs := []) h hst (by simp [Frame.isCall]) (by simp) (by simp [Frame.isCall])
        (fun ps e => by subst e; exact hp) (fun _ _ => rfl) trivial (fun _ => rfl)
        (by simp [wt, Frame.isCall]) (.inl rfl)
    case store k w up v =>
      have hv : v = s.g.count k := h.val t (.store k w up v) (by rw [hst]; exact List.mem_cons_self) rfl
      simp only [fstep, Option.some.injEq, Prod.mk.injEq] at hf
      obtain ⟨rfl, rfl⟩ := hf
      refine inv_call (fs := []) h hst (by simp [Frame.isCall]) (by simp) ?_
        (fun ps e => ?_) (fun _ _ => by rw [tr_set]) ?_ ?_ ?_ (.inr (by simp [Frame.counting]))
      · cases k <;> simp [Frame.isCall]
      · subst e; rw [tr_set, hp]; cases k <;> rfl
      · cases k <;> trivial
      · cases k <;> trivial
      · rw [count_set, if_pos rfl]
        cases k <;> cases up <;> simp [wt, Frame.isCall, delta] <;> omega
    case cmp w up =>
      simp only [fstep, Option.some.injEq, Prod.mk.injEq] at hf
      obtain ⟨rfl, rfl⟩ := hf
      refine inv_call (fs := []) h hst (by simp [Frame.isCall]) (by simp) ?_
        (fun ps e => ?_) (fun _ _ => rfl) ?_ ?_ ?_ (.inl rfl)
      · split <;> simp [Frame.isCall]
      · subst e; rw [hp]; split <;> rfl
      · split <;> trivial
      · split <;> trivial
      · split <;> simp [wt, Frame.isCall]
    case setMax w up c =>
      simp only [fstep, Option.some.injEq, Prod.mk.injEq] at hf
      obtain ⟨rfl, rfl⟩ := hf
      exact inv_call (fs := []) h hst (by simp [Frame.isCall]) (by simp) (by simp [Frame.isCall])
        (fun ps e => by subst e; exact hp) (fun _ _ => rfl) trivial trivial
        (by simp [wt, Frame.isCall, G.count]) (.inl rfl)
    case ret k w up =>
      simp only [fstep] at hf
      split at hf <;> simp only [Option.some.injEq, Prod.mk.injEq] at hf <;> obtain ⟨rfl, rfl⟩ := hf
      · rename_i e; subst e
        refine inv_call (fs := []) h hst (by simp [Frame.isCall]) (by simp) (by simp [Frame.isCall])
          (fun ps e => by subst e; exact hp) (fun _ _ => rfl) ?_ trivial
          (by simp [wt, Frame.isCall]) (.inl rfl)
        simp [wt, Frame.isCall] at htop
        show s.g.count k = (ncalls k rest : Int) + 1
        omega
      · rename_i e; simp only [Bool.not_eq_true] at e; subst e
        exact inv_pop h hst rfl (count_log ..)
    case first k w c =>
      have hcc : c = ncalls k rest + 1 := hok
      simp only [fstep] at hf
      split at hf <;> simp only [Option.some.injEq, Prod.mk.injEq] at hf <;> obtain ⟨rfl, rfl⟩ := hf
      · have hn : phs k rest = [] := phs_nil.2 (by omega)
        refine inv_call (fs := [.app]) h hst (by simp [Frame.isCall]) (by simp [Frame.isCall])
          (by simp [Frame.isCall]) (fun ps e => ?_) (fun u hu => phases_ne hu) hok trivial
          (by simp [wt, Frame.isCall]) (.inl (count_log ..))
        subst e
        simp only [G.log]
        rw [phases_eq hp]; simp [hn, ph, grammar]
      · have hn : phs k rest ≠ [] := fun e => by rw [phs_nil] at e; omega
        refine inv_call (fs := []) h hst (by simp [Frame.isCall]) (by simp)
          (by simp [Frame.isCall]) (fun ps e => ?_) (fun u hu => rfl) hok trivial
          (by simp [wt, Frame.isCall]) (.inl rfl)
        subst e
        rw [hp]; simp [hn, ph]
    case real k w c =>
      simp only [fstep, Option.some.injEq, Prod.mk.injEq] at hf
      obtain ⟨rfl, rfl⟩ := hf
      refine inv_call (fs := [.app]) h hst (by simp [Frame.isCall]) (by simp [Frame.isCall])
        (by simp [Frame.isCall]) (fun ps e => ?_) (fun u hu => phases_ne hu) hok trivial
        (by simp [wt, Frame.isCall]) (.inl (count_log ..))
      subst e
      simp only [G.log]
      rw [phases_eq hp]
      cases hr : phs k rest <;> simp [ph, grammar, hr]
    case rret k w c =>
      simp only [fstep, Option.some.injEq, Prod.mk.injEq] at hf
      obtain ⟨rfl, rfl⟩ := hf
      refine inv_call (fs := []) h hst (by simp [Frame.isCall]) (by simp)
        (by simp [Frame.isCall]) (fun ps e => ?_) (fun u hu => phases_ne hu) hok trivial
        (by simp [wt, Frame.isCall]) (.inl (count_log ..))
      subst e
      simp only [G.log]
      rw [phases_eq hp]
      simp [ph, grammar]
    case second k w c =>
      have hcc : c = ncalls k rest + 1 := hok
      simp only [fstep] at hf
      split at hf <;> simp only [Option.some.injEq, Prod.mk.injEq] at hf <;> obtain ⟨rfl, rfl⟩ := hf
      · have hn : phs k rest = [] := phs_nil.2 (by omega)
        refine inv_call (fs := [.app]) h hst (by simp [Frame.isCall]) (by simp [Frame.isCall])
          (by simp [Frame.isCall]) (fun ps e => ?_) (fun u hu => phases_ne hu) trivial trivial
          (by simp [wt, Frame.isCall]) (.inl (count_log ..))
        subst e
        simp only [G.log]
        rw [phases_eq hp]; simp [hn, ph, grammar]
      · have hn : phs k rest ≠ [] := fun e => by rw [phs_nil] at e; omega
        refine inv_call (fs := []) h hst (by simp [Frame.isCall]) (by simp)
          (by simp [Frame.isCall]) (fun ps e => ?_) (fun u hu => rfl) trivial trivial
          (by simp [wt, Frame.isCall]) (.inl rfl)
        subst e
        rw [hp]; simp [hn, ph]

theorem phases_absent {k : Kind} {u : Tid} {tr : List (Tid × Ev)} (h : ∀ x ∈ tr, x.1 ≠ u) :
    phases k u tr = some [] := by
  induction tr with
  | nil => rfl
  | cons x tr ih =>
    simp [phases, h x List.mem_cons_self, ih fun y hy => h y (List.mem_cons_of_mem _ hy)]

/-- No thread but `t` has an open call. -/
theorem no_calls {k : Kind} {s : S} {t : Tid} (h : Inv k s)
    (ho : ∀ x ∈ s.g.tr, x.1 ≠ t → opened k x.1 s.g.tr = 0) :
    ∀ u, u ≠ t → ncalls k (s.th u) = 0 := by
  intro u hu
  by_cases hx : ∃ x ∈ s.g.tr, x.1 = u
  · obtain ⟨x, hx, rfl⟩ := hx
    have := ho x hx hu
    simpa [opened, h.phase, phs_len] using this
  · have := phases_absent (k := k) fun x hxm e => hx ⟨x, hxm, e⟩
    rw [h.phase u, Option.some.injEq, phs_nil] at this
    exact this

/-- A new call of kind `k` begins. -/
theorem inv_enter {k : Kind} {s : S} {t : Tid} {w : Nat} (h : Inv k s)
    (ho : ∀ x ∈ s.g.tr, x.1 ≠ t → opened k x.1 s.g.tr = 0)
    (hq : ∀ f ∈ s.th t, f.counting k = false) :
    Inv k ⟨s.g.log t (.enter k w), fun u => if u = t then .load k w true :: s.th t else s.th u⟩ := by
  have hno := no_calls h ho
  have hcount : s.g.count k = wts k (s.th t) := by
    obtain ⟨o, h1, h2⟩ := h.own
    by_cases e : t = o
    · subst e; exact h2
    · rw [h2, wts_zero (h1 t e), wts_zero (hno o (Ne.symm e))]
  refine inv_put h ?_ (fun u hu => phases_ne hu) ⟨fun _ => ⟨hq, trivial⟩, h.shape t⟩ ?_ (.inl ⟨hno, ?_⟩)
  · simp only [G.log]
    rw [phases_eq (h.phase t)]
    simp [grammar, phs, Frame.isCall, ph]
  · intro f hf
    rw [count_log]
    rcases List.mem_cons.1 hf with e | hf
    · subst e; trivial
    · exact h.val t f hf
  · rw [count_log, hcount]; simp [wts, wt, Frame.isCall]

theorem inv_all {s : S} (h : ReachA Serial s) (k : Kind) : Inv k s := by
  induction h with
  | init =>
    exact ⟨fun _ => rfl, fun _ => ⟨(fun h => by cases h), trivial⟩,
      fun _ f hf => by rw [List.mem_singleton.1 hf]; trivial,
      ⟨0, fun _ _ => rfl, by cases k <;> rfl⟩⟩
  | @step s s' l _ hA hn ih =>
    obtain ⟨t, i⟩ := l
    cases i with
    | go a b =>
      simp only [next] at hn
      cases hst : s.th t with
      | nil => simp [hst] at hn
      | cons f rest =>
        simp only [hst, Option.map_eq_some_iff] at hn
        obtain ⟨⟨g, fs⟩, hf, rfl⟩ := hn
        exact inv_go ih hst hf
    | call a =>
      simp only [next] at hn
      cases hst : s.th t with
      | nil => simp [hst] at hn
      | cons f rest =>
        rw [hst] at hn
        cases f <;> simp only [Option.some.injEq, reduceCtorEq] at hn
        subst hn
        have skip : ∀ (g : G) (new : List Frame), (new.all fun x => !x.isCall k) = true →
            g.count k = s.g.count k →
            (g.tr = s.g.tr ∨ ∃ e, e.other k = true ∧ g.tr = (t, e) :: s.g.tr) →
            Inv k ⟨g, fun u => if u = t then new ++ .app :: rest else s.th u⟩ :=
          fun g new h1 h2 h3 => inv_skip (old := []) ih (by simpa using hst) (by simp)
            (by simpa using h1) h2 h3
        cases a with
        | init w =>
          cases k with
          | init =>
            have := hA.1 .init rfl
            have h1 := inv_enter (w := w) ih this.1 this.2
            rw [hst] at h1; exact h1
          | fini => exact skip _ _ (by simp [enter, Frame.isCall]) rfl (.inr ⟨_, rfl, rfl⟩)
        | fini w =>
          cases k with
          | fini =>
            have := hA.1 .fini rfl
            have h1 := inv_enter (w := w) ih this.1 this.2
            rw [hst] at h1; exact h1
          | init => exact skip _ _ (by simp [enter, Frame.isCall]) rfl (.inr ⟨_, rfl, rfl⟩)
        | commRank w null => exact skip _ _ rfl rfl (.inl rfl)
        | setSizeRank size rank => exact skip _ _ rfl (count_log ..) (.inr ⟨_, rfl, rfl⟩)
        | getSize => exact skip _ _ rfl (count_log ..) (.inr ⟨_, rfl, rfl⟩)
        | getRank => exact skip _ _ rfl (count_log ..) (.inr ⟨_, rfl, rfl⟩)
    | back =>
      simp only [next] at hn
      cases hst : s.th t with
      | nil => simp [hst] at hn
      | cons f rest =>
        rw [hst] at hn
        cases f <;> try cases hn
        cases rest with
        | nil => simp at hn
        | cons f rest =>
          simp only [Option.some.injEq] at hn
          subst hn
          exact inv_skip (old := [.app]) (new := []) ih (by simpa using hst) (by simp [Frame.isCall])
            (by simp) rfl (.inl rfl)
    | interrupt =>
      simp only [next, Option.some.injEq] at hn
      subst hn
      exact inv_skip (old := []) (new := [.app]) ih rfl (by simp) (by simp [Frame.isCall]) rfl (.inl rfl)
    | unwind =>
      simp only [next, Option.some.injEq] at hn
      subst hn
      have hno : ∀ f ∈ s.th t, f.isCall k = false := fun f hf => by
        have := hA.2 rfl f hf
        cases k
        · exact this.1
        · exact this.2
      exact inv_skip (old := s.th t) (new := [.app]) (rest := []) ih (by simp) hno
        (by simp [Frame.isCall]) rfl (.inl rfl)

theorem wt_nonneg (k : Kind) (f : Frame) : 0 ≤ wt k f := by
  unfold wt
  (repeat' split) <;> omega

theorem wts_nonneg (k : Kind) (st : List Frame) : 0 ≤ wts k st := by
  induction st with
  | nil => exact Int.le_refl _
  | cons f st ih => have := wt_nonneg k f; simp only [wts]; omega

/-- A call that has called the real function counts. -/
theorem inside_counts {k : Kind} {st : List Frame} (h : Phase.inside ∈ phs k st) : 1 ≤ wts k st := by
  induction st with
  | nil => cases h
  | cons f st ih =>
    have h1 := wt_nonneg k f
    have h2 := wts_nonneg k st
    simp only [phs] at h
    simp only [wts]
    split at h
    · rename_i hc
      rcases List.mem_cons.1 h with h | h
      · have : wt k f = 1 := by
          cases f <;> simp only [ph] at h <;> (repeat' split at h) <;>
            first | (cases h; done) | simp [wt, hc]
        omega
      · have := ih h; omega
    · have := ih h; omega

theorem later_reach {A : S → Lbl → Prop} {s s' : S} (hr : ReachA A s) (h : Later A s s') :
    ReachA A s' := by
  induction h with
  | refl => exact hr
  | step _ hA hn ih => exact .step ih hA hn

end Libmonitor.MpiC
