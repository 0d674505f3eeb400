import Verif.Dl.Count

/-!
# C41, C42: finding the real functions; dlopen and dlclose
-/

namespace Libmonitor.Dl

open Spec

/-- The overridden dlopen can start: it is initialised already, or the dynamic linker knows the
real dlopen and dlclose (true whenever libc or libdl is in the global scope behind libmonitor). -/
def Ready (w : World) (st : St) : Prop :=
  st.initDone = true ∨ (w.rtldNext symDlopen ≠ none ∧ w.rtldNext symDlclose ≠ none)

theorem dlopenInit_ready {w : World} {fuel : Nat} {st : St} (h : Ready w st) :
    ∃ st', dlopenInit (lookup w (fuel + 1)) st = some (st', true) ∧ Ready w st' := by
  by_cases hi : st.initDone = true
  · exact ⟨st, by simp [dlopenInit, hi], h⟩
  · rcases h with h | ⟨h1, h2⟩
    · exact absurd h hi
    · obtain ⟨d1, h1⟩ := Option.ne_none_iff_exists'.1 h1
      obtain ⟨d2, h2⟩ := Option.ne_none_iff_exists'.1 h2
      refine ⟨{ st with
        realOpen := if st.realOpen.isSome then st.realOpen else some d1
        realClose := if st.realClose.isSome then st.realClose else some d2
        initDone := true }, ?_, Or.inl rfl⟩
      cases ho : st.realOpen <;> cases hc : st.realClose <;>
        simp [dlopenInit, hi, lookup, h1, h2, ho, hc]

theorem lookup_ready {w : World} {fuel : Nat} {s : Sym} {st : St} (h : Ready w st) :
    ∃ st', lookup w (fuel + 2) s st = some (st', match w.rtldNext s with
      | some d => .ok d
      | none => if w.dladdrOk = false then .error
                else toRes (later w s (after w.self w.loaded))) := by
  rw [lookup]
  cases hn : w.rtldNext s with
  | some d => exact ⟨st, rfl⟩
  | none =>
    simp only
    by_cases hd : w.dladdrOk = false
    · simp [hd]
    · rw [if_neg hd, if_neg hd]
      by_cases hs : w.self ∈ w.loaded
      · rw [scan_true _ _ hs]
        obtain ⟨st', h1, _⟩ := scan_false (w := w) (s := s) (Ready w)
          (fun st h => dlopenInit_ready (fuel := fuel) h)
          (fun st e h => by simpa [Ready, St.emit] using h) (after w.self w.loaded) st h
        exact ⟨st', h1⟩
      · refine ⟨st, ?_⟩
        rw [scan_true_notin _ _ hs, after_notin hs]; rfl

/-- C41: once the overridden dlopen can start, looking up any name in any process ends, and gives:
the dynamic linker's next definition if there is one; otherwise the definition offered by the
first library loaded after libmonitor that offers one; otherwise the process stops
with an error. -/
theorem C41_lookup (w : World) (st : St) (h : Ready w st) (fuel : Nat) (s : Sym) :
    ∃ st' r, lookup w (fuel + 2) s st = some (st', r) ∧
      ((∃ d, IsNext w s d) ∨ NoNext w s) ∧
      (∀ d, IsNext w s d → r = .ok d) ∧
      (NoNext w s → w.dladdrOk = true → ∀ d, IsLater w s d → r = .ok d) ∧
      (NoNext w s → w.dladdrOk = true → (∃ d, IsLater w s d) ∨ NoLater w s) ∧
      (NoNext w s → w.dladdrOk = false ∨ NoLater w s → r = .error) := by
  obtain ⟨st', h1⟩ := lookup_ready (fuel := fuel) (s := s) h
  refine ⟨st', _, h1, ?_, ?_, ?_, ?_, ?_⟩
  · cases hn : w.rtldNext s with
    | some d => exact Or.inl ⟨d, rtldNext_some.1 hn⟩
    | none => exact Or.inr (rtldNext_none.1 hn)
  · intro d hd; rw [rtldNext_some.2 hd]
  · rintro hn hd d ⟨b, mid, o, rest, e, hb, hm, ho⟩
    rw [rtldNext_none.2 hn]
    have : later w s (after w.self w.loaded) = some d := by
      rw [(after_split (x := w.self) (l := w.loaded) (mid := mid ++ o :: rest) (by simp)).2
        ⟨b, by simpa using e, hb⟩]
      exact later_some.2 ⟨mid, o, rest, rfl, hm, ho⟩
    simp [hd, this, toRes]
  · intro _ _
    cases hl : later w s (after w.self w.loaded) with
    | none => exact Or.inr (later_none.1 hl)
    | some d =>
      obtain ⟨mid, o, rest, e, hm, ho⟩ := later_some.1 hl
      obtain ⟨b, e2, hb⟩ := (after_split (x := w.self) (by simp)).1 e
      exact Or.inl ⟨d, b, mid, o, rest, by simpa using e2, hb, hm, ho⟩
  · intro hn hd
    rw [rtldNext_none.2 hn]
    rcases hd with hd | hd
    · simp [hd]
    · have : later w s (after w.self w.loaded) = none := later_none.2 hd
      simp [this, toRes]

/-- C41, the part that holds: the result is never libmonitor's own wrapper, if no library loaded
after libmonitor has libmonitor among its dependencies.  (`scope.Nodup`: the dynamic linker lists
every object once.)  Missing: libraries that do depend on libmonitor, see
`C41_own_wrapper_violates`. -/
theorem C41_not_own_wrapper_partial (w : World) (st : St) (h : Ready w st) (fuel : Nat) (s : Sym)
    (hscope : w.scope.Nodup)
    (hdep : ∀ o ∈ after w.self w.loaded, w.self ∉ (w.obj o).search) :
    ∀ st' d, lookup w (fuel + 2) s st = some (st', .ok d) → d.owner ≠ w.self := by
  intro st' d hl
  obtain ⟨st1, r, e, hcase, hN, hL, hL2, hE⟩ := C41_lookup w st h fuel s
  rw [hl, Option.some.injEq, Prod.mk.injEq] at e
  obtain ⟨-, e⟩ := e
  rcases hcase with ⟨d', hd'⟩ | hn
  · have := hN d' hd'
    rw [← e, Res.ok.injEq] at this
    subst this
    obtain ⟨b, mid, rest, e2, hb, hm, hdd⟩ := hd'
    intro hself
    rw [e2, List.nodup_append] at hscope
    have h3 := hscope.2.2 w.self (by simp) d.owner (by simp)
    exact h3 hself.symm
  · cases hdl : w.dladdrOk with
    | false =>
      have := hE hn (Or.inl hdl)
      rw [← e] at this; cases this
    | true =>
      rcases hL2 hn hdl with ⟨d', hd'⟩ | hno
      · have := hL hn hdl d' hd'
        rw [← e, Res.ok.injEq] at this
        subst this
        obtain ⟨b, mid, o, rest, e2, hb, hm, hop, hnz, m2, r2, e3, hm2, hdd⟩ := hd'
        have ho : o ∈ after w.self w.loaded := by
          rw [(after_split (x := w.self) (mid := mid ++ o :: rest) (by simp)).2
            ⟨b, by simpa using e2, hb⟩]
          simp
        intro hself
        apply hdep o ho
        rw [e3, ← hself]; simp
      · have := hE hn (Or.inr hno)
        rw [← e] at this; cases this

/-- libmonitor is object 1, libc object 2, a tool library 3 loaded with RTLD_LOCAL, an MPI library
4 loaded with RTLD_LOCAL.  Symbol 7 is a wrapped function. -/
def sampleWorld (dep3 : List ObjId) : World where
  obj := fun o => match o with
    | 1 => { search := [1, 2], defs := fun s => if s = 7 ∨ s = 0 ∨ s = 1 then some 100 else none }
    | 2 => { search := [2], defs := fun s => if s = 0 ∨ s = 1 then some 200 else none }
    | 3 => { search := 3 :: dep3, defs := fun _ => none }
    | 4 => { search := [4], defs := fun s => if s = 7 then some 400 else none }
    | _ => { search := [], defs := fun _ => none }
  scope := [0, 1, 2]
  loaded := [0, 1, 2, 3, 4]
  self := 1

example : Ready (sampleWorld [2]) {} ∧ NoNext (sampleWorld [2]) 7 ∧
    (sampleWorld [2]).scope.Nodup ∧
    (∀ o ∈ after (sampleWorld [2]).self (sampleWorld [2]).loaded,
      (sampleWorld [2]).self ∉ ((sampleWorld [2]).obj o).search) ∧
    (lookup (sampleWorld [2]) 2 7 {}).map Prod.snd = some (.ok ⟨4, 400⟩) := by
  refine ⟨Or.inr ?_, ?_, ?_, ?_, ?_⟩
  · decide +kernel
  · unfold NoNext; decide +kernel
  · decide +kernel
  · decide +kernel
  · decide +kernel

/-- C41 is false as stated: a library loaded after libmonitor that depends on it (3 depends on 1)
makes the fallback return libmonitor's own wrapper, although a real definition exists in
library 4. -/
theorem C41_own_wrapper_violates :
    ∃ (w : World) (st : St), Ready w st ∧ w.scope.Nodup ∧ w.loaded.Nodup ∧
      (∃ o ∈ after w.self w.loaded, o ≠ w.self ∧ (w.obj o).defs 7 = some 400) ∧
      ∃ st' d, lookup w 2 7 st = some (st', .ok d) ∧ d.owner = w.self :=
  ⟨sampleWorld [1], {}, Or.inr (by decide +kernel), by decide +kernel, by decide +kernel,
    ⟨4, by decide +kernel, by decide +kernel, by decide +kernel⟩,
    { realOpen := some ⟨2, 200⟩, realClose := some ⟨2, 200⟩, initDone := true,
      ev := [.preDlopen 2, .dlopen 2 true, .dlclose 2, .postDlclose 2,
             .preDlopen 3, .dlopen 3 true, .dlclose 3, .postDlclose 3] },
    ⟨1, 100⟩, by decide +kernel, by decide +kernel⟩

/-- C41 also fails to stop: if the dynamic linker has no next definition of dlopen, the
fallback calls the overridden dlopen, whose initialisation looks up dlopen again, without end.
So neither a definition nor an error is ever delivered, at any depth of recursion. -/
theorem C41_unbounded_recursion (w : World) (hdl : w.dladdrOk = true)
    (hs : after w.self w.loaded ≠ []) (ho : NoNext w symDlopen) :
    ∀ fuel (s : Sym) (st : St), st.initDone = false → st.realOpen = none → NoNext w s →
      lookup w fuel s st = none
  | 0, _, _, _, _, _ => rfl
  | fuel + 1, s, st, hi, hr, hn => by
    have ih := C41_unbounded_recursion w hdl hs ho fuel symDlopen
    have hmem : w.self ∈ w.loaded := by
      by_cases k : w.self ∈ w.loaded
      · exact k
      · exact absurd (after_notin k) hs
    simp only [lookup, rtldNext_none.2 hn, hdl, if_false, Bool.true_eq_false]
    rw [scan_true _ _ hmem]
    cases ha : after w.self w.loaded with
    | nil => exact absurd ha hs
    | cons o os =>
      have : dlopenInit (lookup w fuel) st = none := by
        simp [dlopenInit, hi, hr, ih st hi hr ho]
      simp [scan, this]

/-- Such a process: the real dlopen lives only in a library loaded with RTLD_LOCAL. -/
example :
    let w : World := { obj := fun o => match o with
                         | 1 => { search := [1], defs := fun _ => some 100 }
                         | 2 => { search := [2], defs := fun _ => some 200 }
                         | _ => { search := [], defs := fun _ => none },
                       scope := [0, 1], loaded := [0, 1, 2], self := 1 }
    w.dladdrOk = true ∧ after w.self w.loaded ≠ [] ∧ NoNext w symDlopen ∧
      IsLater w symDlopen ⟨2, 200⟩ := by
  intro w
  refine ⟨rfl, by decide +kernel, fun o ho => by simp [w, after] at ho,
    [0], [], 2, [], rfl, by decide, by simp, rfl, by decide, [], [], rfl, by simp, rfl⟩

/-! ### C42 -/

/-- C42: in every execution, with any number of threads inside dlopen and dlclose at the same time
and however deeply callbacks, lookups, constructors and destructors call them again, the events
of each thread are a beginning of a properly bracketed sequence: one callback before and one after
each real call, with its arguments and its own result, and the caller gets exactly what
the real function returned.  Calls that are left by longjmp, an exception or the end of the thread
are the only ones that may lack their later events. -/
theorem C42_bracketed (sch : List (Tid × Inp)) (t : Tid) :
    Opening (ofThread t (crun {} [] sch).2) := by
  obtain ⟨stk, hp⟩ := (crun_inv sch {} [] ⟨by simp, by simp, by simp [FrOk]⟩
    (fun u => Pend.nil Bracketed.nil)).2 t
  exact pend_opening hp

/-- C42: when a thread has finished all its calls, its events are properly bracketed. -/
theorem C42_bracketed_complete (sch : List (Tid × Inp)) (t : Tid) (s : Sys) (ev : List CEv)
    (tr : List (Tid × CEv)) (h : crun {} [] sch = (.ok s ev, tr)) (hd : s.th t = []) :
    Bracketed (ofThread t tr) := by
  have := (crun_inv sch {} [] ⟨by simp, by simp, by simp [FrOk]⟩
    (fun u => Pend.nil Bracketed.nil)).1
  rw [h] at this
  have hp := this.2 t
  rw [hd] at hp
  exact pend_nil hp rfl

/-- C42: no call goes through a NULL pointer, even if several threads initialise at the same
time. -/
theorem C42_never_null (sch : List (Tid × Inp)) : (crun {} [] sch).1 ≠ .crash := by
  intro h
  have := (crun_inv sch {} [] ⟨by simp, by simp, by simp [FrOk]⟩
    (fun u => Pend.nil Bracketed.nil)).1
  rw [h] at this
  exact this

/-- What the brackets imply for counting when every call returns, per argument: as many callbacks before as after; the
caller gets each result as often as the real function returned it; every callback after
carries a result the real function returned. -/
theorem C42_counts (l : List CEv) (hb : Bracketed l) (hr : AllReturn l) (p f r : Nat) :
    l.countP (fun e => e matches .preOpen ..) = l.countP (fun e => e matches .postOpen ..) ∧
    l.count (.openRet p f r) = l.count (.gotOpen p f r) ∧
    l.count (.postOpen p f r) ≤ l.count (.openRet p f r) ∧
    l.countP (fun e => e matches .preClose ..) = l.countP (fun e => e matches .postClose ..) := by
  induction hb with
  | nil => simp
  | left => simp [AllReturn] at hr
  | append _ _ ih1 ih2 =>
    simp only [AllReturn, List.mem_append, not_or] at hr
    have ih1 := ih1 hr.1
    have ih2 := ih2 hr.2
    simp only [List.countP_append, List.count_append]; omega
  | «open» p' f' r' _ _ _ ih1 ih2 ih3 =>
    simp only [AllReturn, List.mem_append, List.mem_cons, List.not_mem_nil, not_or, reduceCtorEq,
      not_false_eq_true, true_and, and_true, List.cons_append, List.append_assoc] at hr
    have ih1 := ih1 hr.1
    have ih2 := ih2 hr.2.1
    have ih3 := ih3 hr.2.2
    simp only [List.countP_append, List.count_append, List.countP_cons, List.count_cons,
      List.countP_nil, List.count_nil, beq_iff_eq, CEv.openRet.injEq, CEv.gotOpen.injEq,
      CEv.postOpen.injEq, reduceCtorEq, if_false]
    simp
    omega
  | close h' r' _ _ _ ih1 ih2 ih3 =>
    simp only [AllReturn, List.mem_append, List.mem_cons, List.not_mem_nil, not_or, reduceCtorEq,
      not_false_eq_true, true_and, and_true, List.cons_append, List.append_assoc] at hr
    have ih1 := ih1 hr.1
    have ih2 := ih2 hr.2.1
    have ih3 := ih3 hr.2.2
    simp only [List.countP_append, List.count_append, List.countP_cons, List.count_cons,
      List.countP_nil, List.count_nil, beq_iff_eq, reduceCtorEq, if_false]
    simp
    omega
  | realOpen p' f' r' _ ih =>
    simp only [AllReturn, List.mem_append, List.mem_cons, List.not_mem_nil, not_or, reduceCtorEq,
      not_false_eq_true, true_and, and_true, List.cons_append] at hr
    have ih := ih hr
    simp only [List.countP_append, List.count_append, List.countP_cons, List.count_cons,
      List.countP_nil, List.count_nil, beq_iff_eq, CEv.openRet.injEq, CEv.gotOpen.injEq,
      reduceCtorEq, if_false]
    simp
    omega
  | realClose h' r' _ ih =>
    simp only [AllReturn, List.mem_append, List.mem_cons, List.not_mem_nil, not_or, reduceCtorEq,
      not_false_eq_true, true_and, and_true, List.cons_append] at hr
    have ih := ih hr
    simp only [List.countP_append, List.count_append, List.countP_cons, List.count_cons,
      List.countP_nil, List.count_nil, beq_iff_eq, reduceCtorEq, if_false]
    simp
    omega

/-- C42: whatever is left without returning, at every moment of every execution each thread has seen
at most as many callbacks after as before; a result is passed to a callback after, and to the
caller, at most as often as the real function returned it. -/
theorem C42_at_most (sch : List (Tid × Inp)) (t : Tid) (p f r : Nat) (k : Int) :
    let l := ofThread t (crun {} [] sch).2
    l.countP (fun e => e matches .postOpen ..) ≤ l.countP (fun e => e matches .preOpen ..) ∧
    l.count (.postOpen p f r) ≤ l.count (.openRet p f r) ∧
    l.count (.gotOpen p f r) ≤ l.count (.openRet p f r) ∧
    l.countP (fun e => e matches .postClose ..) ≤ l.countP (fun e => e matches .preClose ..) ∧
    l.count (.postClose p k) ≤ l.count (.closeRet p k) ∧
    l.count (.gotClose p k) ≤ l.count (.closeRet p k) := by
  intro l
  have h : Opening l := C42_bracketed sch t
  have w : ∀ a b : CEv, (a == b) = decide (a = b) := fun a b => by
    rw [Bool.eq_iff_iff]; simp
  refine ⟨?_, ?_, ?_, ?_, ?_, ?_⟩ <;>
  · refine opening_le ?_ ?_ ?_ ?_ ?_ h <;> simp [Dom, w]

/-- Thread 1 opens a library whose constructor opens another, while thread 2 initialises at the
same time and closes a handle. -/
def sampleSched : List (Tid × Inp) :=
  let k := Inp.ret 30 0 true
  [(1, .call (.open 1 2)), (1, k), (2, .call (.close 9)), (2, k), (1, k), (2, k), (2, k), (1, k),
   (1, k), (2, k), (1, k), (2, k), (1, .call (.open 5 6)), (1, k), (1, k), (1, .ret 70 0 true),
   (1, k), (2, .ret 0 (-1) true), (1, k), (2, k), (1, k)]

example : ofThread 1 (crun {} [] sampleSched).2 =
      [.preOpen 1 2, .open 1 2, .preOpen 5 6, .open 5 6, .openRet 5 6 70, .postOpen 5 6 70,
       .gotOpen 5 6 70, .openRet 1 2 30, .postOpen 1 2 30, .gotOpen 1 2 30] ∧
    ofThread 2 (crun {} [] sampleSched).2 =
      [.preClose 9, .close 9, .closeRet 9 (-1), .postClose 9 (-1), .gotClose 9 (-1)] := by
  decide +kernel

/-- The constructor of the library opened by thread 1 opens another one, whose constructor leaves
both calls by longjmp; then thread 1 closes a handle. -/
def sampleLeave : List (Tid × Inp) :=
  let k := Inp.ret 30 0 true
  [(1, .call (.open 1 2)), (1, k), (1, k), (1, k), (1, k), (1, k), (1, .call (.open 5 6)), (1, k),
   (1, k), (1, .leave 2), (1, .call (.close 9)), (1, k), (1, k), (1, k), (1, k)]

example : ofThread 1 (crun {} [] sampleLeave).2 =
      [.preOpen 1 2, .open 1 2, .preOpen 5 6, .open 5 6, .left, .preClose 9, .close 9,
       .closeRet 9 0, .postClose 9 0, .gotClose 9 0] := by
  decide +kernel

end Libmonitor.Dl
