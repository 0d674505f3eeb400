import Verif.Dl.Props

/-!
# C41: what the wrappers of dlopen and dlclose look up for themselves, and when the search never ends
-/

namespace Libmonitor.Dl

open Spec

/-- The two names of dlopen.c:87-88, as numbers. -/
def nameDlopen : Sym := 0
def nameDlclose : Sym := 1

/-- C41, for dlopen.c itself: in a process in which the dynamic linker knows a next dlopen and a next
dlclose, the first call of a wrapper ends its initialisation with just these two definitions, each in its
own pointer, and without a callback. -/
theorem C41_init {w : World} {d1 d2 : Def} (h1 : IsNext w nameDlopen d1) (h2 : IsNext w nameDlclose d2)
    (fuel : Nat) : ∃ st, dlopenInit (lookup w (fuel + 1)) {} = some (st, true) ∧
      st.realOpen = some d1 ∧ st.realClose = some d2 ∧ st.initDone = true ∧ st.ev = [] := by
  have e1 : w.rtldNext symDlopen = some d1 := rtldNext_some.2 h1
  have e2 : w.rtldNext symDlclose = some d2 := rtldNext_some.2 h2
  refine ⟨{ realOpen := some d1, realClose := some d2, initDone := true }, ?_, rfl, rfl, rfl, rfl⟩
  simp [dlopenInit, lookup, e1, e2]

/-- libc defines dlopen at 200 and dlclose at 201. -/
def twoNames : World where
  obj := fun o => match o with
    | 1 => { search := [1, 2], defs := fun s => if s = 0 ∨ s = 1 then some (100 + s) else none }
    | 2 => { search := [2], defs := fun s => if s = 0 ∨ s = 1 then some (200 + s) else none }
    | _ => { search := [], defs := fun _ => none }
  scope := [0, 1, 2]
  loaded := [0, 1, 2]
  self := 1

example : IsNext twoNames nameDlopen ⟨2, 200⟩ ∧ IsNext twoNames nameDlclose ⟨2, 201⟩ :=
  ⟨rtldNext_some.1 (by decide +kernel), rtldNext_some.1 (by decide +kernel)⟩

/-- With only dlclose unknown to the dynamic linker the search does not end either. -/
theorem lookup_no_close {w : World} (hdl : w.dladdrOk = true) (hs : after w.self w.loaded ≠ [])
    {d : Def} (ho : w.rtldNext symDlopen = some d) (hc : NoNext w symDlclose) :
    ∀ fuel (s : Sym) (st : St), st.initDone = false → st.realClose = none → NoNext w s →
      lookup w fuel s st = none
  | 0, _, _, _, _, _ => rfl
  | fuel + 1, s, st, hi, hr, hn => by
    have ih := lookup_no_close hdl hs ho hc fuel symDlclose
    have hmem : w.self ∈ w.loaded := by
      by_cases k : w.self ∈ w.loaded
      · exact k
      · exact absurd (after_notin k) hs
    simp only [lookup, rtldNext_none.2 hn, hdl, if_false, Bool.true_eq_false]
    rw [scan_true _ _ hmem]
    cases ha : after w.self w.loaded with
    | nil => exact absurd ha hs
    | cons o os =>
      have : dlopenInit (lookup w fuel) st = none := by
        cases hro : st.realOpen with
        | some d' => simp [dlopenInit, hi, hr, hro, ih st hi hr hc]
        | none =>
          cases fuel with
          | zero => simp [dlopenInit, hi, hro, lookup]
          | succ fuel =>
            have e : lookup w (fuel + 1) symDlopen st = some (st, .ok d) := by simp [lookup, ho]
            simp [dlopenInit, hi, hr, hro, e, ih { realOpen := some d, ev := st.ev } rfl rfl hc]
      simp [scan, this]

/-- C41 in full, for the first lookup of a process: a name with a next definition is found at once; one
without stops the process at once if libmonitor cannot find itself or nothing is loaded after it;
otherwise, if the dynamic linker knows the next dlopen and the next dlclose, the lookup ends (with the
result given by `C41_lookup`), and if it does not know one of them, the lookup never ends: no depth of
recursion is enough. -/
theorem C41_first (w : World) (s : Sym) :
    (∀ d, IsNext w s d → ∀ fuel, lookup w (fuel + 1) s {} = some ({}, .ok d)) ∧
    (NoNext w s → w.dladdrOk = false ∨ (∀ b o rest, w.loaded = b ++ w.self :: o :: rest → w.self ∈ b) →
      ∀ fuel, lookup w (fuel + 1) s {} = some ({}, .error)) ∧
    (∀ d1 d2, IsNext w nameDlopen d1 → IsNext w nameDlclose d2 → ∀ fuel, lookup w (fuel + 2) s {} ≠ none) ∧
    (NoNext w s → w.dladdrOk = true → (∃ b o rest, w.loaded = b ++ w.self :: o :: rest ∧ w.self ∉ b) →
      NoNext w nameDlopen ∨ NoNext w nameDlclose → ∀ fuel, lookup w fuel s {} = none) := by
  refine ⟨fun d h fuel => ?_, fun h h' fuel => ?_, fun d1 d2 h1 h2 fuel => ?_, fun h hd hl hn fuel => ?_⟩
  · simp [lookup, rtldNext_some.2 h]
  · cases hd : w.dladdrOk with
    | false => simp [lookup, rtldNext_none.2 h, hd]
    | true =>
      have h' := h'.resolve_left (by simp [hd])
      by_cases hs : w.self ∈ w.loaded
      · have ha : after w.self w.loaded = [] := by
          cases ha : after w.self w.loaded with
          | nil => rfl
          | cons o os =>
            obtain ⟨b, e, hb⟩ := (after_split (x := w.self) (by simp)).1 ha
            exact absurd (h' b o os e) hb
        simp [lookup, rtldNext_none.2 h, hd, scan_true _ _ hs, ha, scan]
      · simp [lookup, rtldNext_none.2 h, hd, scan_true_notin _ _ hs]
  · have hr : Ready w {} := Or.inr
      ⟨by rw [show w.rtldNext symDlopen = some d1 from rtldNext_some.2 h1]; simp,
       by rw [show w.rtldNext symDlclose = some d2 from rtldNext_some.2 h2]; simp⟩
    obtain ⟨st', e⟩ := lookup_ready (fuel := fuel) (s := s) hr
    rw [e]; simp
  · obtain ⟨b, o, rest, e, hb⟩ := hl
    have hs : after w.self w.loaded ≠ [] := by
      rw [(after_split (x := w.self) (l := w.loaded) (mid := o :: rest) (by simp)).2 ⟨b, e, hb⟩]; simp
    cases ho : w.rtldNext symDlopen with
    | none => exact C41_unbounded_recursion w hd hs (rtldNext_none.1 ho) fuel s {} rfl rfl h
    | some d =>
      have hc : NoNext w symDlclose := hn.resolve_left fun k => by
        rw [show w.rtldNext symDlopen = none from rtldNext_none.2 k] at ho; cases ho
      exact lookup_no_close hd hs ho hc fuel s {} rfl rfl h

/-- The dynamic linker knows dlopen, but dlclose is only in a library loaded with RTLD_LOCAL. -/
example :
    let w : World := { obj := fun o => match o with
                         | 1 => { search := [1], defs := fun _ => some 100 }
                         | 2 => { search := [2], defs := fun s => if s = 0 then some 200 else none }
                         | 3 => { search := [3], defs := fun _ => some 300 }
                         | _ => { search := [], defs := fun _ => none },
                       scope := [0, 1, 2], loaded := [0, 1, 3, 2], self := 1 }
    w.dladdrOk = true ∧ IsNext w nameDlopen ⟨2, 200⟩ ∧ NoNext w nameDlclose ∧ NoNext w 7 ∧
      IsLater w 7 ⟨3, 300⟩ := by
  intro w
  refine ⟨rfl, rtldNext_some.1 (by decide +kernel), rtldNext_none.1 (by decide +kernel),
    rtldNext_none.1 (by decide +kernel), [0], [], 3, [2], rfl, by decide, by simp, rfl, by decide,
    [], [], rfl, by simp, rfl⟩

end Libmonitor.Dl
