import Verif.MpiC.Lemmas
/-!
# The stored size and rank
-/

namespace Libmonitor.MpiC

def nstore (st : List Frame) : Nat := st.countP Frame.storing

/-- What a frame that is storing knows. -/
def Frame.setOk (g : G) : Frame → Prop
  | .ss1 size rank => g.firstSet = true ∧ published g.tr = [(size, rank)] ∧ g.size = -1 ∧ g.rank = -1
  | .ss2 rank => g.firstSet = true ∧ published g.tr = [(g.size, rank)] ∧ g.rank = -1
  | .ss3 => g.firstSet = true ∧ published g.tr = [(g.size, g.rank)]
  | _ => True

/-- The frame has published a pair and is not done. -/
def Frame.pending : Frame → Bool
  | .ss1 .. | .ss2 .. | .ss3 => true
  | _ => false

/-- The thread of a frame that may come to store something has left a trace. -/
def Frame.traced : Frame → Bool
  | .sm0 .. | .sm1 .. | .sm2 .. | .ss0 .. | .ss1 .. | .ss2 .. | .ss3 => true
  | _ => false

structure Inv2 (s : S) : Prop where
  traced : ∀ t, ∀ f ∈ s.th t, f.traced = true → ∃ e, (t, e) ∈ s.g.tr
  one : ∃ o, (∀ u, u ≠ o → nstore (s.th u) = 0) ∧ nstore (s.th o) ≤ 1
  ok : ∀ t, ∀ f ∈ s.th t, f.setOk s.g
  idle : (∀ t, ∀ f ∈ s.th t, f.pending = false) →
    if s.g.firstSet then published s.g.tr = [] ∧ s.g.size = -1 ∧ s.g.rank = -1
    else published s.g.tr = [(s.g.size, s.g.rank)]

theorem pending_storing {f : Frame} (h : f.pending = true) : f.storing = true := by
  cases f <;> simp_all [Frame.pending, Frame.storing]

theorem storing_traced {f : Frame} (h : f.storing = true) : f.traced = true := by
  cases f <;> simp_all [Frame.traced, Frame.storing]

theorem nstore_zero {st : List Frame} : nstore st = 0 ↔ ∀ f ∈ st, f.storing = false := by
  simp [nstore, List.countP_eq_zero]

/-- The variables of the size and rank, and what was published, are unchanged. -/
structure Same (g g' : G) : Prop where
  first : g'.firstSet = g.firstSet
  size : g'.size = g.size
  rank : g'.rank = g.rank
  pub : published g'.tr = published g.tr

theorem setOk_same {g g' : G} (h : Same g g') {f : Frame} (hf : f.setOk g) : f.setOk g' := by
  cases f <;> simp_all [Frame.setOk, h.first, h.size, h.rank, h.pub]

/-- A step of thread `t` that stores nothing. -/
theorem inv2_same {s : S} {t : Tid} {g : G} {old new rest : List Frame} (h : Inv2 s)
    (hst : s.th t = old ++ rest) (hS : Same s.g g)
    (htr : ∀ x ∈ s.g.tr, x ∈ g.tr)
    (hn : ∀ f ∈ new, f.traced = true → ∃ e, (t, e) ∈ g.tr)
    (hpend : ∀ f ∈ new, f.pending = false)
    (hold : ∀ f ∈ old, f.pending = false)
    (hstore : nstore new = nstore old ∨ nstore new ≤ nstore old ∨
      ((∀ u, nstore (s.th u) = 0) ∧ nstore new ≤ 1)) :
    Inv2 ⟨g, fun u => if u = t then new ++ rest else s.th u⟩ := by
  have hcnt : ∀ u, nstore (s.th u) = nstore (s.th u) := fun _ => rfl
  constructor
  · intro u f hf hfT
    by_cases e : u = t
    · subst e
      simp only [if_true] at hf
      rcases List.mem_append.1 hf with hf | hf
      · exact hn f hf hfT
      · obtain ⟨e, he⟩ := h.traced u f (by rw [hst]; exact List.mem_append_right _ hf) hfT
        exact ⟨e, htr _ he⟩
    · simp only [e, if_false] at hf
      obtain ⟨e, he⟩ := h.traced u f hf hfT
      exact ⟨e, htr _ he⟩
  · have ht : nstore (s.th t) = nstore old + nstore rest := by rw [hst]; simp [nstore]
    have hnew : nstore (new ++ rest) = nstore new + nstore rest := by simp [nstore]
    have hle : nstore new ≤ nstore old ∨ ((∀ u, nstore (s.th u) = 0) ∧ nstore new ≤ 1) := by
      rcases hstore with e | e | e
      · exact .inl (by omega)
      · exact .inl e
      · exact .inr e
    rcases hle with hle | ⟨h0, hle⟩
    · obtain ⟨o, h1, h2⟩ := h.one
      refine ⟨o, fun u hu => ?_, ?_⟩
      · by_cases e : u = t
        · subst e
          have := h1 u hu
          simp only [if_true]; omega
        · simpa [e] using h1 u hu
      · by_cases e : o = t
        · subst e; simp only [if_true]; omega
        · simpa [e] using h2
    · refine ⟨t, fun u hu => by simpa [hu] using h0 u, ?_⟩
      have := h0 t
      simp only [if_true]; omega
  · intro u f hf
    by_cases e : u = t
    · subst e
      simp only [if_true] at hf
      rcases List.mem_append.1 hf with hf | hf
      · have := hpend f hf
        cases f <;> first | trivial | simp [Frame.pending] at this
      · exact setOk_same hS (h.ok u f (by rw [hst]; exact List.mem_append_right _ hf))
    · simp only [e, if_false] at hf
      exact setOk_same hS (h.ok u f hf)
  · intro hno
    have := h.idle fun u f hf => by
      by_cases e : u = t
      · subst e
        rw [hst] at hf
        rcases List.mem_append.1 hf with hf | hf
        · exact hold f hf
        · exact hno u f (by simp only [if_true]; exact List.mem_append_right _ hf)
      · exact hno u f (by simpa [e] using hf)
    simp only [hS.first, hS.size, hS.rank, hS.pub]
    exact this

/-- A step of the one call of monitor_set_size_rank. -/
theorem inv2_store {s : S} {t : Tid} {g : G} {f : Frame} {new rest : List Frame} (h : Inv2 s)
    (hst : s.th t = f :: rest) (hf : f.storing = true)
    (htr : ∀ x ∈ s.g.tr, x ∈ g.tr)
    (hn : nstore new ≤ 1) (hok : ∀ x ∈ new, x.setOk g)
    (hidle : (∀ x ∈ new, x.pending = false) →
      if g.firstSet then published g.tr = [] ∧ g.size = -1 ∧ g.rank = -1
      else published g.tr = [(g.size, g.rank)]) :
    Inv2 ⟨g, fun u => if u = t then new ++ rest else s.th u⟩ := by
  have ht : nstore (s.th t) = 1 + nstore rest := by rw [hst]; simp [nstore, hf]; omega
  obtain ⟨o, h1, h2⟩ := h.one
  have e : t = o := Classical.byContradiction fun e => by have := h1 t e; omega
  subst e
  have hr : nstore rest = 0 := by omega
  have hrest := nstore_zero.1 hr
  have hquiet : ∀ u, u ≠ t → ∀ x ∈ s.th u, x.storing = false := fun u hu => nstore_zero.1 (h1 u hu)
  have trivOk : ∀ x : Frame, x.storing = false → x.setOk g := fun x hx => by
    cases x <;> first | trivial | simp [Frame.storing] at hx
  obtain ⟨ev, hev⟩ := h.traced t f (by rw [hst]; exact List.mem_cons_self) (storing_traced hf)
  constructor
  · intro u x hx hxT
    by_cases e : u = t
    · subst e; exact ⟨ev, htr _ hev⟩
    · simp only [e, if_false] at hx
      obtain ⟨e, he⟩ := h.traced u x hx hxT
      exact ⟨e, htr _ he⟩
  · refine ⟨t, fun u hu => by simpa [hu] using h1 u hu, ?_⟩
    simp only [if_true, nstore, List.countP_append] at *
    omega
  · intro u x hx
    by_cases e : u = t
    · subst e
      simp only [if_true] at hx
      rcases List.mem_append.1 hx with hx | hx
      · exact hok x hx
      · exact trivOk x (hrest x hx)
    · simp only [e, if_false] at hx
      exact trivOk x (hquiet u e x hx)
  · intro hno
    exact hidle fun x hx => hno t x (by simp only [if_true]; exact List.mem_append_left _ hx)

/-- While a call stands before its test, nothing is pending. -/
theorem inv2_ss0 {s : S} {t : Tid} {size rank : Int} {rest : List Frame} (h : Inv2 s)
    (hst : s.th t = .ss0 size rank :: rest) : ∀ u, ∀ f ∈ s.th u, f.pending = false := by
  obtain ⟨o, h1, h2⟩ := h.one
  have ht : nstore (s.th t) = 1 + nstore rest := by
    rw [hst]; simp [nstore, List.countP_cons, Frame.storing]; omega
  have e : t = o := Classical.byContradiction fun e => by have := h1 t e; omega
  subst e
  have hr : nstore rest = 0 := by omega
  intro u f hf
  have key : f.storing = false → f.pending = false := fun hs => by
    cases hp : f.pending
    · rfl
    · rw [pending_storing hp] at hs; cases hs
  by_cases e : u = t
  · subst e
    rw [hst] at hf
    rcases List.mem_cons.1 hf with e | hf
    · subst e; rfl
    · exact key (nstore_zero.1 hr f hf)
  · exact key (nstore_zero.1 (h1 u e) f hf)

/-- Nobody is storing when a new call may begin. -/
theorem no_store {s : S} (h : Inv2 s) (ho : ∀ x ∈ s.g.tr, ∀ f ∈ s.th x.1, f.storing = false) :
    ∀ u, nstore (s.th u) = 0 := by
  intro u
  rw [nstore_zero]
  intro f hf
  cases hs : f.storing
  · rfl
  · obtain ⟨e, he⟩ := h.traced u f hf (storing_traced hs)
    rw [ho _ he f hf] at hs; cases hs

theorem pub_log (tr : List (Tid × Ev)) (t : Tid) (e : Ev) (h : ∀ a b, e ≠ .publish a b) :
    published ((t, e) :: tr) = published tr := by
  cases e <;> first | rfl | exact absurd rfl (h _ _)

theorem inv2_all {s : S} (h : ReachA OneSet s) : Inv2 s := by
  induction h with
  | init =>
    exact ⟨(fun _ f hf h => by rw [List.mem_singleton.1 hf] at h; cases h),
      ⟨0, fun _ _ => rfl, Nat.zero_le _⟩,
      (fun _ f hf => by rw [List.mem_singleton.1 hf]; trivial), fun _ => ⟨rfl, rfl, rfl⟩⟩
  | @step s s' l _ hA hn ih =>
    obtain ⟨t, i⟩ := l
    cases i with
    | go a b =>
      simp only [next] at hn
      cases hst : s.th t with
      | nil => simp [hst] at hn
      | cons f rest =>
        simp only [hst, Option.map_eq_some_iff] at hn
        obtain ⟨⟨g, fs⟩, hf, rfl⟩ := hn
        have hmem : f ∈ s.th t := by rw [hst]; exact List.mem_cons_self
        have hsame : Same s.g g → f.pending = false → (∀ x ∈ s.g.tr, x ∈ g.tr) →
            (∀ x ∈ fs, x.traced = true → ∃ e, (t, e) ∈ g.tr) → (fs.all fun x => !x.pending) = true →
            (nstore fs ≤ nstore [f] ∨ ((∀ u, nstore (s.th u) = 0) ∧ nstore fs ≤ 1)) →
            Inv2 ⟨g, fun u => if u = t then fs ++ rest else s.th u⟩ := fun h1 h2 h3 h4 h5 h6 =>
          inv2_same (old := [f]) ih (by simpa using hst) h1 h3 h4 (by simpa using h5)
            (by simpa using h2) (.inr h6)
        have hok := ih.ok t f hmem
        have htrc := ih.traced t f hmem
        cases f with
        | app => simp [fstep] at hf
        | ss0 size rank =>
          have hp := inv2_ss0 ih hst
          have hi := ih.idle hp
          simp only [fstep] at hf
          split at hf <;> simp only [Option.some.injEq, Prod.mk.injEq] at hf <;>
            obtain ⟨rfl, rfl⟩ := hf <;> rename_i hfs
          · simp only [hfs, if_true] at hi
            refine inv2_store ih hst rfl (fun x hx => List.mem_cons_of_mem _ hx)
              (by simp [nstore, Frame.storing]) ?_ ?_
            · intro x hx
              rw [List.mem_singleton.1 hx]
              refine ⟨hfs, ?_, hi.2.1, hi.2.2⟩
              simp only [G.log]
              show (size, rank) :: published s.g.tr = _
              rw [hi.1]
            · intro h0; have := h0 _ List.mem_cons_self; cases this
          · refine inv2_store ih hst rfl (fun x hx => hx) (by simp [nstore]) (by simp) fun _ => hi
        | ss1 size rank =>
          obtain ⟨o1, o2, o3, o4⟩ := hok
          simp only [fstep, Option.some.injEq, Prod.mk.injEq] at hf
          obtain ⟨rfl, rfl⟩ := hf
          refine inv2_store ih hst rfl (fun x hx => hx) (by simp [nstore, Frame.storing]) ?_ ?_
          · intro x hx
            rw [List.mem_singleton.1 hx]
            exact ⟨o1, o2, o4⟩
          · intro h0; have := h0 _ List.mem_cons_self; cases this
        | ss2 rank =>
          obtain ⟨o1, o2, o3⟩ := hok
          simp only [fstep, Option.some.injEq, Prod.mk.injEq] at hf
          obtain ⟨rfl, rfl⟩ := hf
          refine inv2_store ih hst rfl (fun x hx => hx) (by simp [nstore, Frame.storing]) ?_ ?_
          · intro x hx
            rw [List.mem_singleton.1 hx]
            exact ⟨o1, o2⟩
          · intro h0; have := h0 _ List.mem_cons_self; cases this
        | ss3 =>
          obtain ⟨o1, o2⟩ := hok
          simp only [fstep, Option.some.injEq, Prod.mk.injEq] at hf
          obtain ⟨rfl, rfl⟩ := hf
          refine inv2_store ih hst rfl (fun x hx => hx) (by simp [nstore]) (by simp) fun _ => ?_
          simpa using o2
        | sm2 size rank =>
          have h0 := no_store ih (hA.1 (by simp [beginsSet, hst]))
          simp only [fstep, Option.some.injEq, Prod.mk.injEq] at hf
          obtain ⟨rfl, rfl⟩ := hf
          refine hsame ⟨rfl, rfl, rfl, rfl⟩ rfl (fun x hx => hx) (fun x _ _ => htrc rfl) ?_
            (.inr ⟨h0, ?_⟩)
          · split <;> rfl
          · split <;> simp [nstore, List.countP_cons, Frame.storing]
        | cr2 null size rank old =>
          simp only [fstep] at hf
          split at hf <;> simp only [Option.some.injEq, Prod.mk.injEq] at hf <;>
            obtain ⟨rfl, rfl⟩ := hf
          · exact hsame ⟨rfl, rfl, rfl, rfl⟩ rfl (fun x hx => List.mem_cons_of_mem _ hx)
              (by simp) rfl (.inl (by simp [nstore]))
          · exact hsame ⟨rfl, rfl, rfl, rfl⟩ rfl (fun x hx => List.mem_cons_of_mem _ hx)
              (fun _ _ _ => ⟨_, List.mem_cons_self⟩) rfl (.inl (by simp [nstore, Frame.storing]))
        | store k w up v =>
          simp only [fstep, Option.some.injEq, Prod.mk.injEq] at hf
          obtain ⟨rfl, rfl⟩ := hf
          refine hsame ?_ rfl (fun x hx => by rw [tr_set]; exact hx) ?_ ?_ (.inl ?_)
          · cases k <;> exact ⟨rfl, rfl, rfl, rfl⟩
          · cases k <;> simp [Frame.traced]
          · cases k <;> rfl
          · cases k <;> simp [nstore, Frame.storing]
        | _ =>
          simp only [fstep] at hf
          (repeat' split at hf) <;> simp only [Option.some.injEq, Prod.mk.injEq] at hf <;>
            obtain ⟨rfl, rfl⟩ := hf <;>
            refine hsame ⟨rfl, rfl, rfl, rfl⟩ rfl ?_ ?_ ?_ (.inl ?_) <;>
            first
            | exact fun x hx => hx
            | exact fun x hx => List.mem_cons_of_mem _ hx
            | exact fun x _ _ => htrc rfl
            | rfl
            | exact Nat.zero_le _
            | (simp [Frame.traced]; done)
            | (split <;> first | rfl | exact Nat.zero_le _ | (simp [Frame.traced]; done))
    | call a =>
      simp only [next] at hn
      cases hst : s.th t with
      | nil => simp [hst] at hn
      | cons f rest =>
        rw [hst] at hn
        cases f <;> simp only [Option.some.injEq, reduceCtorEq] at hn
        subst hn
        have skip : ∀ (g : G) (new : List Frame), Same s.g g → (∀ x ∈ s.g.tr, x ∈ g.tr) →
            (∀ x ∈ new, x.traced = true → ∃ e, (t, e) ∈ g.tr) → (new.all fun x => !x.pending) = true →
            (nstore new ≤ 0 ∨ ((∀ u, nstore (s.th u) = 0) ∧ nstore new ≤ 1)) →
            Inv2 ⟨g, fun u => if u = t then new ++ .app :: rest else s.th u⟩ :=
          fun g new h1 h2 h3 h4 h5 => inv2_same (old := []) ih (by simpa using hst) h1 h2 h3
            (by simpa using h4) (by simp) (.inr h5)
        cases a with
        | setSizeRank size rank =>
          have h0 := no_store ih (hA.1 (by simp [beginsSet]))
          exact skip _ _ ⟨rfl, rfl, rfl, rfl⟩ (fun x hx => List.mem_cons_of_mem _ hx)
            (fun _ _ _ => ⟨_, List.mem_cons_self⟩) rfl (.inr ⟨h0, by simp [enter, nstore, Frame.storing]⟩)
        | commRank w null =>
          exact skip _ _ ⟨rfl, rfl, rfl, rfl⟩ (fun x hx => hx)
            (by simp [enter, Frame.traced]) rfl (.inl (by simp [enter, nstore, Frame.storing]))
        | _ =>
          exact skip _ _ ⟨rfl, rfl, rfl, rfl⟩ (fun x hx => List.mem_cons_of_mem _ hx)
            (by simp [enter, Frame.traced]) rfl (.inl (by simp [enter, nstore, Frame.storing]))
    | back =>
      simp only [next] at hn
      cases hst : s.th t with
      | nil => simp [hst] at hn
      | cons f rest =>
        rw [hst] at hn
        cases f <;> try cases hn
        cases rest with
        | nil => simp at hn
        | cons f rest =>
          simp only [Option.some.injEq] at hn
          subst hn
          exact inv2_same (old := [.app]) (new := []) ih (by simpa using hst) ⟨rfl, rfl, rfl, rfl⟩
            (fun _ h => h) (by simp) (by simp) (by simp [Frame.pending]) (.inr (.inl (by simp [nstore])))
    | interrupt =>
      simp only [next, Option.some.injEq] at hn
      subst hn
      exact inv2_same (old := []) (new := [.app]) ih rfl ⟨rfl, rfl, rfl, rfl⟩
        (fun _ h => h) (by simp [Frame.traced]) (by simp [Frame.pending]) (by simp)
        (.inr (.inl (by simp [nstore, Frame.storing])))
    | unwind =>
      simp only [next, Option.some.injEq] at hn
      subst hn
      have hno := hA.2 rfl
      refine inv2_same (old := s.th t) (new := [.app]) (rest := []) ih (by simp) ⟨rfl, rfl, rfl, rfl⟩
        (fun _ h => h) (by simp [Frame.traced]) (by simp [Frame.pending]) (fun f hf => ?_)
        (.inr (.inl (by simp [nstore, Frame.storing])))
      cases hp : f.pending
      · rfl
      · have := hno f hf; rw [pending_storing hp] at this; cases this

end Libmonitor.MpiC
