import Verif.Dl.Lemmas

/-! # Invariants of nested and concurrent dlopen/dlclose calls -/

namespace Libmonitor.Dl

open Spec

/-- Pending frames of a thread and the events it has produced so far. -/
inductive Pend : List Frame → List CEv → Prop
  | nil {l} : Bracketed l → Pend [] l
  | init0 {q st l a} : Pend st l → Bracketed a → Pend (.init0 q :: st) (l ++ a)
  | init1 {q st l a} : Pend st l → Bracketed a → Pend (.init1 q :: st) (l ++ a)
  | init2 {q st l a} : Pend st l → Bracketed a → Pend (.init2 q :: st) (l ++ a)
  | init3 {q st l a} : Pend st l → Bracketed a → Pend (.init3 q :: st) (l ++ a)
  | openPre {p f st l a} : Pend st l → Bracketed a →
    Pend (.openPre p f :: st) (l ++ (.preOpen p f :: a))
  | openBody {p f st l a b} : Pend st l → Bracketed a → Bracketed b →
    Pend (.openBody p f :: st) (l ++ (.preOpen p f :: a ++ .open p f :: b))
  | openPost {p f r st l a b c} : Pend st l → Bracketed a → Bracketed b → Bracketed c →
    Pend (.openPost p f r :: st)
      (l ++ (.preOpen p f :: a ++ .open p f :: b ++ .openRet p f r :: .postOpen p f r :: c))
  | closePre {h st l a} : Pend st l → Bracketed a →
    Pend (.closePre h :: st) (l ++ (.preClose h :: a))
  | closeBody {h st l a b} : Pend st l → Bracketed a → Bracketed b →
    Pend (.closeBody h :: st) (l ++ (.preClose h :: a ++ .close h :: b))
  | closePost {h r st l a b c} : Pend st l → Bracketed a → Bracketed b → Bracketed c →
    Pend (.closePost h r :: st)
      (l ++ (.preClose h :: a ++ .close h :: b ++ .closeRet h r :: .postClose h r :: c))
  | rOpen {p f st l b} : Pend st l → Bracketed b → Pend (.rOpen p f :: st) (l ++ (.open p f :: b))
  | rClose {h st l b} : Pend st l → Bracketed b → Pend (.rClose h :: st) (l ++ (.close h :: b))

theorem pend_nil {st : List Frame} {l : List CEv} (h : Pend st l) (e : st = []) :
    Bracketed l := by
  cases h <;> first | assumption | cases e

/-- A complete bracketed part may be added at any point. -/
theorem pend_append {st : List Frame} {l b : List CEv} (h : Pend st l) (hb : Bracketed b) :
    Pend st (l ++ b) := by
  cases h with
  | nil h => exact .nil (h.append hb)
  | init0 h ha => rw [List.append_assoc]; exact .init0 h (ha.append hb)
  | init1 h ha => rw [List.append_assoc]; exact .init1 h (ha.append hb)
  | init2 h ha => rw [List.append_assoc]; exact .init2 h (ha.append hb)
  | init3 h ha => rw [List.append_assoc]; exact .init3 h (ha.append hb)
  | openPre h ha => simpa [List.append_assoc] using Pend.openPre h (ha.append hb)
  | openBody h ha h2 => simpa [List.append_assoc] using Pend.openBody h ha (h2.append hb)
  | openPost h ha h2 h3 =>
    simpa [List.append_assoc] using Pend.openPost h ha h2 (h3.append hb)
  | closePre h ha => simpa [List.append_assoc] using Pend.closePre h (ha.append hb)
  | closeBody h ha h2 => simpa [List.append_assoc] using Pend.closeBody h ha (h2.append hb)
  | closePost h ha h2 h3 =>
    simpa [List.append_assoc] using Pend.closePost h ha h2 (h3.append hb)
  | rOpen h ha => simpa [List.append_assoc] using Pend.rOpen h (ha.append hb)
  | rClose h ha => simpa [List.append_assoc] using Pend.rClose h (ha.append hb)

/-- Pending calls can be completed. -/
theorem pend_complete {st : List Frame} {l : List CEv} (h : Pend st l) :
    ∀ x, Bracketed x → ∃ r, AllReturn r ∧ Bracketed (l ++ x ++ r) := by
  induction h with
  | nil h => intro x hx; exact ⟨[], by simp [AllReturn], by simpa using h.append hx⟩
  | init0 _ ha ih | init1 _ ha ih | init2 _ ha ih | init3 _ ha ih =>
    intro x hx
    obtain ⟨r, hr, h⟩ := ih _ (ha.append hx)
    exact ⟨r, hr, by simpa [List.append_assoc] using h⟩
  | @openPre p f st l a _ ha ih =>
    intro x hx
    obtain ⟨r, hr, h⟩ := ih _ (Bracketed.open p f 0 (ha.append hx) .nil .nil)
    exact ⟨[.open p f, .openRet p f 0, .postOpen p f 0, .gotOpen p f 0] ++ r, by simpa [AllReturn] using hr,
      by simpa [List.append_assoc] using h⟩
  | @openBody p f st l a b _ ha hb ih =>
    intro x hx
    obtain ⟨r, hr, h⟩ := ih _ (Bracketed.open p f 0 ha (hb.append hx) .nil)
    exact ⟨[.openRet p f 0, .postOpen p f 0, .gotOpen p f 0] ++ r, by simpa [AllReturn] using hr,
      by simpa [List.append_assoc] using h⟩
  | @openPost p f q st l a b c _ ha hb hc ih =>
    intro x hx
    obtain ⟨r, hr, h⟩ := ih _ (Bracketed.open p f q ha hb (hc.append hx))
    exact ⟨[.gotOpen p f q] ++ r, by simpa [AllReturn] using hr,
      by simpa [List.append_assoc] using h⟩
  | @closePre p st l a _ ha ih =>
    intro x hx
    obtain ⟨r, hr, h⟩ := ih _ (Bracketed.close p 0 (ha.append hx) .nil .nil)
    exact ⟨[.close p, .closeRet p 0, .postClose p 0, .gotClose p 0] ++ r, by simpa [AllReturn] using hr,
      by simpa [List.append_assoc] using h⟩
  | @closeBody p st l a b _ ha hb ih =>
    intro x hx
    obtain ⟨r, hr, h⟩ := ih _ (Bracketed.close p 0 ha (hb.append hx) .nil)
    exact ⟨[.closeRet p 0, .postClose p 0, .gotClose p 0] ++ r, by simpa [AllReturn] using hr,
      by simpa [List.append_assoc] using h⟩
  | @closePost p q st l a b c _ ha hb hc ih =>
    intro x hx
    obtain ⟨r, hr, h⟩ := ih _ (Bracketed.close p q ha hb (hc.append hx))
    exact ⟨[.gotClose p q] ++ r, by simpa [AllReturn] using hr,
      by simpa [List.append_assoc] using h⟩
  | @rOpen p f st l b _ hb ih =>
    intro x hx
    obtain ⟨r, hr, h⟩ := ih _ (Bracketed.realOpen p f 0 (hb.append hx))
    exact ⟨[.openRet p f 0, .gotOpen p f 0] ++ r, by simpa [AllReturn] using hr,
      by simpa [List.append_assoc] using h⟩
  | @rClose p st l b _ hb ih =>
    intro x hx
    obtain ⟨r, hr, h⟩ := ih _ (Bracketed.realClose p 0 (hb.append hx))
    exact ⟨[.closeRet p 0, .gotClose p 0] ++ r, by simpa [AllReturn] using hr,
      by simpa [List.append_assoc] using h⟩

theorem pend_opening {st : List Frame} {l : List CEv} (h : Pend st l) : Opening l := by
  obtain ⟨r, hr, h⟩ := pend_complete h [] .nil
  exact ⟨r, hr, by simpa using h⟩

/-- A beginning of a bracketed sequence in which calls not finished may be left. -/
def Started (l : List CEv) : Prop := ∃ r, Bracketed (l ++ r)

/-- Leaving the innermost calls. -/
theorem pend_drop {st : List Frame} {l : List CEv} (h : Pend st l) :
    ∀ n x, Started x → ∃ l0 y, l ++ x = l0 ++ y ∧ Pend (st.drop n) l0 ∧ Started y := by
  have zero : ∀ {st l}, Pend st l → ∀ x, Started x →
      ∃ l0 y, l ++ x = l0 ++ y ∧ Pend (st.drop 0) l0 ∧ Started y :=
    fun h x hx => ⟨_, x, rfl, by simpa using h, hx⟩
  -- one frame with events `y0` is left
  have more : ∀ {st l fr} (y0 : List CEv), (∀ x, Started x → Started (y0 ++ x)) →
      (∀ n x, Started x → ∃ l0 y, l ++ x = l0 ++ y ∧ Pend (st.drop n) l0 ∧ Started y) →
      Pend (fr :: st) (l ++ y0) → ∀ n x, Started x →
      ∃ l0 y, (l ++ y0) ++ x = l0 ++ y ∧ Pend ((fr :: st).drop n) l0 ∧ Started y := by
    intro st l fr y0 h0 ih hp n x hx
    cases n with
    | zero => exact zero hp x hx
    | succ n =>
      obtain ⟨l0, y, e, h1, h2⟩ := ih n _ (h0 x hx)
      exact ⟨l0, y, by rw [List.append_assoc, e], by simpa using h1, h2⟩
  induction h with
  | nil h => intro n x hx; exact ⟨_, x, rfl, by simpa using Pend.nil h, hx⟩
  | init0 h ha ih =>
    exact more _ (fun x ⟨r, hx⟩ => ⟨r, by simpa using ha.append hx⟩) ih (.init0 h ha)
  | init1 h ha ih =>
    exact more _ (fun x ⟨r, hx⟩ => ⟨r, by simpa using ha.append hx⟩) ih (.init1 h ha)
  | init2 h ha ih =>
    exact more _ (fun x ⟨r, hx⟩ => ⟨r, by simpa using ha.append hx⟩) ih (.init2 h ha)
  | init3 h ha ih =>
    exact more _ (fun x ⟨r, hx⟩ => ⟨r, by simpa using ha.append hx⟩) ih (.init3 h ha)
  | @openPre p f st l a h ha ih =>
    exact more _ (fun x ⟨r, hx⟩ => ⟨r ++ [.open p f, .openRet p f 0, .postOpen p f 0, .gotOpen p f 0],
      by simpa using Bracketed.open p f 0 (ha.append hx) .nil .nil⟩) ih (.openPre h ha)
  | @openBody p f st l a b h ha hb ih =>
    exact more _ (fun x ⟨r, hx⟩ => ⟨r ++ [.openRet p f 0, .postOpen p f 0, .gotOpen p f 0],
      by simpa using Bracketed.open p f 0 ha (hb.append hx) .nil⟩) ih (.openBody h ha hb)
  | @openPost p f q st l a b c h ha hb hc ih =>
    exact more _ (fun x ⟨r, hx⟩ => ⟨r ++ [.gotOpen p f q],
      by simpa using Bracketed.open p f q ha hb (hc.append hx)⟩) ih (.openPost h ha hb hc)
  | @closePre p st l a h ha ih =>
    exact more _ (fun x ⟨r, hx⟩ => ⟨r ++ [.close p, .closeRet p 0, .postClose p 0, .gotClose p 0],
      by simpa using Bracketed.close p 0 (ha.append hx) .nil .nil⟩) ih (.closePre h ha)
  | @closeBody p st l a b h ha hb ih =>
    exact more _ (fun x ⟨r, hx⟩ => ⟨r ++ [.closeRet p 0, .postClose p 0, .gotClose p 0],
      by simpa using Bracketed.close p 0 ha (hb.append hx) .nil⟩) ih (.closeBody h ha hb)
  | @closePost p q st l a b c h ha hb hc ih =>
    exact more _ (fun x ⟨r, hx⟩ => ⟨r ++ [.gotClose p q],
      by simpa using Bracketed.close p q ha hb (hc.append hx)⟩) ih (.closePost h ha hb hc)
  | @rOpen p f st l b h hb ih =>
    exact more _ (fun x ⟨r, hx⟩ => ⟨r ++ [.openRet p f 0, .gotOpen p f 0],
      by simpa using Bracketed.realOpen p f 0 (hb.append hx)⟩) ih (.rOpen h hb)
  | @rClose p st l b h hb ih =>
    exact more _ (fun x ⟨r, hx⟩ => ⟨r ++ [.closeRet p 0, .gotClose p 0],
      by simpa using Bracketed.realClose p 0 (hb.append hx)⟩) ih (.rClose h hb)

theorem pend_leave {st : List Frame} {l : List CEv} (h : Pend st l) (n : Nat) :
    Pend (st.drop n) (l ++ [.left]) := by
  obtain ⟨l0, y, e, h1, r, h2⟩ := pend_drop h n [] ⟨[], .nil⟩
  rw [List.append_nil] at e
  rw [e, List.append_assoc]
  exact pend_append h1 (.left h2)

/-- Which pointers a frame relies on. -/
def FrOk (s : Sys) : Frame → Prop
  | .init0 _ | .init1 _ => True
  | .init2 _ => s.ro = true
  | _ => s.ro = true ∧ s.rc = true

/-- Pointers are set before the flag, and before anything that uses them. -/
structure CInv (s : Sys) : Prop where
  ro : s.initDone = true → s.ro = true
  rc : s.initDone = true → s.rc = true
  fr : ∀ t, ∀ f ∈ s.th t, FrOk s f

theorem frOk_mono {s s' : Sys} (h1 : s.ro = true → s'.ro = true)
    (h2 : s.rc = true → s'.rc = true) {f : Frame} (h : FrOk s f) : FrOk s' f := by
  cases f <;> simp only [FrOk] at * <;> first | trivial | exact h1 h | exact ⟨h1 h.1, h2 h.2⟩

theorem cinv_set {s s' : Sys} (hs : CInv s) {t : Tid} {l : List Frame}
    (h1 : s.ro = true → s'.ro = true) (h2 : s.rc = true → s'.rc = true)
    (hth : ∀ u, u ≠ t → s'.th u = s.th u) (ht : s'.th t = l) (hl : ∀ f ∈ l, FrOk s' f)
    (hi : s'.initDone = true → s'.ro = true ∧ s'.rc = true) : CInv s' := by
  refine ⟨fun k => (hi k).1, fun k => (hi k).2, ?_⟩
  intro u f hf
  by_cases e : u = t
  · subst e; rw [ht] at hf; exact hl f hf
  · rw [hth u e] at hf; exact frOk_mono h1 h2 (hs.fr u f hf)

/-- The property of one step: no crash; the new frames and events fit together. -/
def StepGood (s : Sys) (t : Tid) : Out → Prop
  | .crash => False
  | .stop => True
  | .ok s' ev => CInv s' ∧ (∀ u, u ≠ t → s'.th u = s.th u) ∧
      ∀ l, Pend (s.th t) l → Pend (s'.th t) (l ++ ev)

theorem setTh_self (s : Sys) (t : Tid) (l : List Frame) : (setTh s t l).th t = l := by
  simp [setTh]

theorem setTh_ne (s : Sys) {t u : Tid} (l : List Frame) (h : u ≠ t) :
    (setTh s t l).th u = s.th u := by
  simp [setTh, h]

theorem enter_good {s : Sys} {t : Tid} {q : Req} {rest : List Frame} (hs : CInv s)
    (ho : s.ro = true) (hc : s.rc = true) (hrest : ∀ f ∈ rest, FrOk s f) (s0 : Sys)
    (h0 : ∀ u, u ≠ t → s.th u = s0.th u)
    (hp : ∀ l, Pend (s0.th t) l → Pend rest l) : StepGood s0 t (enter s t q rest) := by
  have key : ∀ (f : Frame), (FrOk (setTh s t (f :: rest)) f) → CInv (setTh s t (f :: rest)) := by
    intro f hf
    refine cinv_set hs (fun k => k) (fun k => k) (fun u hu => setTh_ne _ _ hu) (setTh_self ..) ?_
      (fun k => ⟨hs.ro k, hs.rc k⟩)
    intro g hg
    rcases List.mem_cons.1 hg with rfl | hg
    · exact hf
    · exact frOk_mono (s := s) (fun k => k) (fun k => k) (hrest g hg)
  have oth : ∀ (l : List Frame) u, u ≠ t → (setTh s t l).th u = s0.th u := by
    intro l u hu; rw [setTh_ne _ _ hu, h0 u hu]
  cases q with
  | «open» p f =>
    refine ⟨key _ ⟨ho, hc⟩, oth _, ?_⟩
    intro l hl; rw [setTh_self]; exact .openPre (hp l hl) .nil
  | close h =>
    refine ⟨key _ ⟨ho, hc⟩, oth _, ?_⟩
    intro l hl; rw [setTh_self]; exact .closePre (hp l hl) .nil
  | realOpen p f =>
    simp only [enter, ho, if_true]
    refine ⟨key _ ⟨ho, hc⟩, oth _, ?_⟩
    intro l hl; rw [setTh_self]; exact .rOpen (hp l hl) .nil
  | realClose h =>
    simp only [enter, hc, if_true]
    refine ⟨key _ ⟨ho, hc⟩, oth _, ?_⟩
    intro l hl; rw [setTh_self]; exact .rClose (hp l hl) .nil

theorem cstep_good {s : Sys} (hs : CInv s) (t : Tid) (i : Inp) : StepGood s t (cstep s t i) := by
  -- a step that only replaces the top frame
  have top : ∀ (s' : Sys) (l : List Frame) (ev : List CEv), s'.th = (setTh s t l).th →
      (s.ro = true → s'.ro = true) → (s.rc = true → s'.rc = true) → s'.initDone = s.initDone →
      (∀ f ∈ l, FrOk s' f) → (∀ tr, Pend (s.th t) tr → Pend l (tr ++ ev)) →
      StepGood s t (.ok s' ev) := by
    intro s' l ev e h1 h2 h3 h4 h5
    refine ⟨cinv_set hs h1 h2 (fun u hu => by rw [e, setTh_ne _ _ hu])
      (by rw [e, setTh_self]) h4 (fun k => ⟨h1 (hs.ro (h3 ▸ k)), h2 (hs.rc (h3 ▸ k))⟩),
      fun u hu => by rw [e, setTh_ne _ _ hu], ?_⟩
    intro tr htr; rw [e, setTh_self]; exact h5 tr htr
  cases i with
  | call q =>
    refine top _ _ [] rfl (fun k => k) (fun k => k) rfl ?_ ?_
    · intro f hf
      rcases List.mem_cons.1 hf with rfl | hf
      · exact trivial
      · exact frOk_mono (s := s) (fun k => k) (fun k => k) (hs.fr t f hf)
    · intro tr h; exact .init0 h .nil
  | leave n =>
    refine top _ _ _ rfl (fun k => k) (fun k => k) rfl ?_ (fun tr h => pend_leave h n)
    intro f hf
    exact frOk_mono (s := s) (fun k => k) (fun k => k) (hs.fr t f (List.mem_of_mem_drop hf))
  | ret h r ok =>
    have hfr := hs.fr t
    simp only [cstep]
    cases hst : s.th t with
    | nil =>
      refine ⟨hs, fun u _ => rfl, ?_⟩
      intro l hl; simpa [hst] using hl
    | cons fr rest =>
      rw [hst] at hfr
      have hrest : ∀ f ∈ rest, FrOk s f := fun f hf => hfr f (by simp [hf])
      have htop := hfr fr (by simp)
      have mk : ∀ (s' : Sys) (g : Frame) (ev : List CEv),
          s'.th = (setTh s t (g :: rest)).th →
          (s.ro = true → s'.ro = true) → (s.rc = true → s'.rc = true) →
          s'.initDone = s.initDone → FrOk s' g →
          (∀ tr, Pend (fr :: rest) tr → Pend (g :: rest) (tr ++ ev)) →
          StepGood s t (.ok s' ev) := by
        intro s' g ev e h1 h2 h3 h4 h5
        refine top s' _ ev e h1 h2 h3 ?_ (by rw [hst]; exact h5)
        intro f hf
        rcases List.mem_cons.1 hf with rfl | hf
        · exact h4
        · exact frOk_mono h1 h2 (hrest f hf)
      have pop : ∀ ev, (∀ tr, Pend (fr :: rest) tr → Pend rest (tr ++ ev)) →
          StepGood s t (.ok (setTh s t rest) ev) := by
        intro ev h5
        refine top _ _ ev rfl (fun k => k) (fun k => k) rfl ?_ (by rw [hst]; exact h5)
        intro f hf
        exact frOk_mono (s := s) (fun k => k) (fun k => k) (hrest f hf)
      cases fr with
      | init0 q =>
        by_cases k : s.initDone = true
        · simp only [k, if_true]
          refine enter_good hs (hs.ro k) (hs.rc k) hrest s (fun _ _ => rfl) ?_
          rw [hst]; intro l hl
          cases hl with | init0 h ha => exact pend_append h ha
        · simp only [k]
          refine mk _ _ [] rfl (fun k => k) (fun k => k) rfl trivial ?_
          intro tr h; rw [List.append_nil]
          cases h with | init0 h ha => exact .init1 h ha
      | init1 q =>
        have pp : ∀ tr, Pend (.init1 q :: rest) tr → Pend (.init2 q :: rest) (tr ++ []) := by
          intro tr h; rw [List.append_nil]
          cases h with | init1 h ha => exact .init2 h ha
        by_cases k : s.ro = true
        · simp only [k, if_true]
          exact mk _ _ [] rfl (fun k => k) (fun k => k) rfl k pp
        · simp only [k]
          cases ok with
          | false => exact trivial
          | true => exact mk _ _ [] rfl (fun _ => rfl) (fun k => k) rfl rfl pp
      | init2 q =>
        have pp : ∀ tr, Pend (.init2 q :: rest) tr → Pend (.init3 q :: rest) (tr ++ []) := by
          intro tr h; rw [List.append_nil]
          cases h with | init2 h ha => exact .init3 h ha
        by_cases k : s.rc = true
        · simp only [k, if_true]
          exact mk _ _ [] rfl (fun k => k) (fun k => k) rfl ⟨htop, k⟩ pp
        · simp only [k]
          cases ok with
          | false => exact trivial
          | true => exact mk _ _ [] rfl (fun k => k) (fun _ => rfl) rfl ⟨htop, rfl⟩ pp
      | init3 q =>
        refine enter_good (s := { s with initDone := true })
          ⟨fun _ => htop.1, fun _ => htop.2, fun u f hf => ?_⟩ htop.1 htop.2 ?_ s
          (fun _ _ => rfl) ?_
        · exact frOk_mono (s := s) (fun k => k) (fun k => k) (hs.fr u f hf)
        · intro f hf; exact frOk_mono (s := s) (fun k => k) (fun k => k) (hrest f hf)
        · rw [hst]; intro l hl
          cases hl with | init3 h ha => exact pend_append h ha
      | openPre p f =>
        simp only [htop.1, if_true]
        refine mk _ _ _ rfl (fun k => k) (fun k => k) rfl htop ?_
        intro tr h
        cases h with
        | openPre h ha => simpa [List.append_assoc] using Pend.openBody h ha .nil
      | openBody p f =>
        refine mk _ _ _ rfl (fun k => k) (fun k => k) rfl htop ?_
        intro tr h
        cases h with
        | openBody h ha hb => simpa [List.append_assoc] using Pend.openPost h ha hb .nil
      | openPost p f h =>
        refine pop _ ?_
        intro tr h
        cases h with
        | openPost h ha hb hc =>
          simpa [List.append_assoc] using pend_append h (Bracketed.open _ _ _ ha hb hc)
      | closePre p =>
        simp only [htop.2, if_true]
        refine mk _ _ _ rfl (fun k => k) (fun k => k) rfl htop ?_
        intro tr h
        cases h with
        | closePre h ha => simpa [List.append_assoc] using Pend.closeBody h ha .nil
      | closeBody p =>
        refine mk _ _ _ rfl (fun k => k) (fun k => k) rfl htop ?_
        intro tr h
        cases h with
        | closeBody h ha hb => simpa [List.append_assoc] using Pend.closePost h ha hb .nil
      | closePost p h =>
        refine pop _ ?_
        intro tr h
        cases h with
        | closePost h ha hb hc =>
          simpa [List.append_assoc] using pend_append h (Bracketed.close _ _ ha hb hc)
      | rOpen p f =>
        refine pop _ ?_
        intro tr k
        cases k with
        | rOpen k hb =>
          simpa [List.append_assoc] using pend_append k (Bracketed.realOpen _ _ h hb)
      | rClose p =>
        refine pop _ ?_
        intro tr k
        cases k with
        | rClose k hb =>
          simpa [List.append_assoc] using pend_append k (Bracketed.realClose _ r hb)

theorem ofThread_append (t : Tid) (a : List (Tid × CEv)) (ev : List CEv) (u : Tid) :
    ofThread t (a ++ ev.map (fun e => (u, e))) =
      ofThread t a ++ (if u = t then ev else []) := by
  unfold ofThread
  rw [List.filter_append, List.map_append]
  congr 1
  by_cases e : u = t
  · subst e
    simp [List.filter_map, Function.comp_def]
  · simp [List.filter_map, Function.comp_def, e]

/-- The final state fits the trace. -/
def Fits (tr : List (Tid × CEv)) : Out → Prop
  | .ok s _ => CInv s ∧ ∀ t, Pend (s.th t) (ofThread t tr)
  | .stop => True
  | .crash => False

theorem crun_inv : ∀ (sch : List (Tid × Inp)) (s : Sys) (tr : List (Tid × CEv)), CInv s →
    (∀ t, Pend (s.th t) (ofThread t tr)) →
    Fits (crun s tr sch).2 (crun s tr sch).1 ∧
    ∀ t, ∃ st, Pend st (ofThread t (crun s tr sch).2)
  | [], s, tr, hs, hp => ⟨⟨hs, hp⟩, fun t => ⟨_, hp t⟩⟩
  | (t, i) :: rest, s, tr, hs, hp => by
    have hg := cstep_good hs t i
    rw [crun]
    cases hc : cstep s t i with
    | crash => rw [hc] at hg; exact hg.elim
    | stop => exact ⟨trivial, fun u => ⟨_, hp u⟩⟩
    | ok s' ev =>
      rw [hc] at hg
      obtain ⟨h1, h2, h3⟩ := hg
      refine crun_inv rest s' _ h1 ?_
      intro u
      rw [ofThread_append]
      by_cases e : t = u
      · subst e; rw [if_pos rfl]; exact h3 _ (hp t)
      · rw [if_neg e, List.append_nil, h2 u (Ne.symm e)]; exact hp u

end Libmonitor.Dl
