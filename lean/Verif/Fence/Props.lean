import Verif.Fence.Model

/-!
# C43, C53: recognising the bottom of the call stack
-/

namespace Libmonitor.Fence

/-- `addr` lies in the function's code. -/
def InBody (b : Body) (addr : Nat) : Prop := b.lo ≤ addr ∧ addr < b.hi

/-- `addr` is the return address of a call in piece `c` of code that starts at `start`. -/
def IsReturn (start : Nat) (c : List Instr) (addr : Nat) : Prop :=
  ∃ before i rest, c = before ++ i :: rest ∧ i.call = true ∧
    addr = start + size before + i.len

def mkLib (m : Body) (t : Option Body) : Lib := ⟨m.fences, t.map Body.fences⟩

theorem size_append (a b : List Instr) : size (a ++ b) = size a + size b := by
  simp [size, List.sum_append]

theorem size_cons (i : Instr) (c : List Instr) : size (i :: c) = i.len + size c := by
  simp [size]

theorem wide_iff {f : Fences} {a : Nat} : wide f a = true ↔ f.f1 ≤ a ∧ a ≤ f.f4 := by
  simp [wide]

theorem narrow_iff {f : Fences} {a : Nat} : narrow f a = true ↔ f.f2 ≤ a ∧ a ≤ f.f3 := by
  simp [narrow]

/-- C43: whatever the compiler generates between the labels, an address recognised in the
narrow sense is recognised in the wide sense, with and without thread support. -/
theorem C43_narrow_wide (m : Body) (t : Option Body) (addr : Nat)
    (h : startNarrow (mkLib m t) addr = true) : startWide (mkLib m t) addr = true := by
  have key : ∀ b : Body, narrow b.fences addr = true → wide b.fences addr = true := by
    intro b hb
    rw [narrow_iff] at hb; rw [wide_iff]
    simp only [Body.fences] at *
    omega
  unfold startNarrow at h
  unfold startWide
  rw [Bool.or_eq_true] at h ⊢
  rcases h with h | h
  · exact Or.inl (key m h)
  · cases t with
    | none => simp [mkLib] at h
    | some t => exact Or.inr (key t h)

/-- C43: code outside the start functions is never recognised, in either sense; the function must
not end at its last label (there is at least the return instruction behind it). -/
theorem C43_outside (m : Body) (t : Option Body) (addr : Nat) (hm : 0 < size m.c4)
    (ht : ∀ b ∈ t, 0 < size b.c4) (ho : ¬ InBody m addr) (hot : ∀ b ∈ t, ¬ InBody b addr) :
    startWide (mkLib m t) addr = false ∧ startNarrow (mkLib m t) addr = false ∧
    processBottom (mkLib m t) addr = false ∧ threadBottom (mkLib m t) addr = false := by
  have key : ∀ b : Body, 0 < size b.c4 → ¬ InBody b addr → ¬ (b.fences.f1 ≤ addr ∧
      addr ≤ b.fences.f4) := by
    intro b h1 h2 h3
    apply h2
    simp only [InBody, Body.hi, Body.fences] at *
    omega
  have hw : startWide (mkLib m t) addr = false := by
    cases h : startWide (mkLib m t) addr with
    | false => rfl
    | true =>
      exfalso
      unfold startWide at h
      rw [Bool.or_eq_true] at h
      rcases h with h | h
      · exact key m hm ho (wide_iff.1 h)
      · cases t with
        | none => simp [mkLib] at h
        | some t => exact key t (ht t rfl) (hot t rfl) (wide_iff.1 h)
  refine ⟨hw, ?_, ?_, ?_⟩
  · cases h : startNarrow (mkLib m t) addr with
    | false => rfl
    | true => rw [C43_narrow_wide m t addr h] at hw; cases hw
  · cases h : processBottom (mkLib m t) addr with
    | false => rfl
    | true =>
      exfalso
      refine key m hm ho ?_
      unfold processBottom at h
      rw [Bool.and_eq_true, decide_eq_true_iff, decide_eq_true_iff] at h
      exact h
  · cases t with
    | none => rfl
    | some t =>
      cases h : threadBottom (mkLib m (some t)) addr with
      | false => rfl
      | true =>
        exfalso
        refine key t (ht t rfl) (hot t rfl) ?_
        unfold threadBottom at h
        simp only [mkLib, Option.map_some] at h
        rw [Bool.and_eq_true, decide_eq_true_iff, decide_eq_true_iff] at h
        exact h

/-- C43, the other direction: the return address of the call of the application is recognised in
both senses, even if it is the last instruction before the label. -/
theorem C43_application_recognised (m : Body) (t : Option Body) (addr : Nat)
    (h : IsReturn m.fences.f2 m.c2 addr ∨ ∃ b ∈ t, IsReturn b.fences.f2 b.c2 addr) :
    startNarrow (mkLib m t) addr = true ∧ startWide (mkLib m t) addr = true := by
  have key : ∀ b : Body, IsReturn b.fences.f2 b.c2 addr → narrow b.fences addr = true := by
    rintro b ⟨x, i, r, e, -, ha⟩
    rw [narrow_iff]
    have : size b.c2 = size x + (i.len + size r) := by rw [e, size_append, size_cons]
    simp only [Body.fences] at *
    omega
  have hn : startNarrow (mkLib m t) addr = true := by
    unfold startNarrow
    rw [Bool.or_eq_true]
    rcases h with h | ⟨b, hb, h⟩
    · exact Or.inl (key m h)
    · cases t with
      | none => cases hb
      | some t =>
        cases hb
        exact Or.inr (key _ h)
  exact ⟨hn, C43_narrow_wide m t addr hn⟩

/-- C43 depends on the order of the labels: if the compiler moved the second label before the
first one, an address could be narrow and not wide. -/
theorem C43_order_needed : ∃ (f : Fences) (addr : Nat), narrow f addr = true ∧
    wide f addr = false :=
  ⟨⟨10, 5, 20, 30⟩, 7, by decide, by decide⟩

/-- C43 depends on code behind the last label: otherwise the first byte of the next function is
taken for the start function. -/
theorem C43_last_byte_needed : ∃ (m : Body) (addr : Nat), ¬ InBody m addr ∧
    startWide (mkLib m none) addr = true :=
  ⟨⟨0, [⟨1, false⟩], [⟨4, false⟩], [⟨4, true⟩], [⟨4, true⟩], []⟩, 13, by
    simp [InBody, Body.hi, Body.fences, size], by
    simp [startWide, mkLib, wide, Body.fences, size]⟩

/-- A start function as a compiler might lay it out. -/
def sampleBody (lo : Nat) (last : List Instr) : Body where
  lo := lo
  c0 := [⟨4, false⟩]
  c1 := [⟨5, true⟩, ⟨3, false⟩, ⟨5, true⟩] ++ last
  c2 := [⟨3, false⟩, ⟨6, true⟩]
  c3 := [⟨5, false⟩, ⟨5, true⟩]
  c4 := [⟨1, false⟩]

example : startNarrow (mkLib (sampleBody 100 []) (some (sampleBody 300 []))) 326 = true ∧
    startWide (mkLib (sampleBody 100 []) (some (sampleBody 300 []))) 305 = true ∧
    startNarrow (mkLib (sampleBody 100 []) (some (sampleBody 300 []))) 305 = false ∧
    ¬ InBody (sampleBody 100 []) 200 ∧ ¬ InBody (sampleBody 300 []) 200 ∧
    0 < size (sampleBody 100 []).c4 ∧
    IsReturn (sampleBody 100 []).fences.f2 (sampleBody 100 []).c2 126 := by
  refine ⟨by decide, by decide, by decide, ?_, ?_, by decide, [⟨3, false⟩], ⟨6, true⟩, [], rfl,
    rfl, by decide⟩
  · simp [InBody, Body.hi, Body.fences, sampleBody, size]
  · simp [InBody, Body.hi, Body.fences, sampleBody, size]

/-- C53, the part that holds: the return address of a call made before the application is entered
(initialisation, callbacks) is not recognised in the narrow sense, if that call is followed by at
least one more instruction before the second label.  Missing: a call directly before the
label, see `C53_last_call_violates`. -/
theorem C53_init_not_narrow_partial (b : Body) (before : List Instr) (i : Instr)
    (rest : List Instr) (hb : b.c1 = before ++ i :: rest) (hc : i.call = true)
    (hr : 0 < size rest) :
    narrow b.fences (b.fences.f1 + size before + i.len) = false ∧ IsReturn b.fences.f1 b.c1
      (b.fences.f1 + size before + i.len) := by
  refine ⟨?_, before, i, rest, hb, hc, rfl⟩
  cases h : narrow b.fences (b.fences.f1 + size before + i.len) with
  | false => rfl
  | true =>
    rw [narrow_iff] at h
    have e : size b.c1 = size before + (i.len + size rest) := by rw [hb, size_append, size_cons]
    simp only [Body.fences] at *
    omega

/-- C53 is false when a call is the last instruction before the second label, as the call of
monitor_at_main is in monitor_main (main.c:518-520): while that callback runs, before the
application has been entered, the frame is taken for the call of the application.  This holds
for every such function. -/
theorem C53_last_call_violates (b : Body) (before : List Instr) (i : Instr)
    (hb : b.c1 = before ++ [i]) (hc : i.call = true) :
    IsReturn b.fences.f1 b.c1 (b.fences.f1 + size before + i.len) ∧
    narrow b.fences (b.fences.f1 + size before + i.len) = true := by
  refine ⟨⟨before, i, [], hb, hc, rfl⟩, ?_⟩
  rw [narrow_iff]
  have e : size b.c1 = size before + (i.len + 0) := by rw [hb, size_append, size_cons]; rfl
  simp only [Body.fences] at *
  omega

example : (sampleBody 100 []).c1 = [⟨5, true⟩, ⟨3, false⟩] ++ [⟨5, true⟩] ∧
    (sampleBody 100 [⟨7, false⟩]).c1 = [⟨5, true⟩, ⟨3, false⟩] ++ ⟨5, true⟩ :: [⟨7, false⟩] ∧
    0 < size [⟨7, false⟩] := by
  refine ⟨rfl, rfl, by decide⟩

end Libmonitor.Fence
