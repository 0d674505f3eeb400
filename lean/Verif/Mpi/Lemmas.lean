import Verif.Mpi.Spec

/-!
# Helper lemmas for C37, C38
-/

namespace Libmonitor.Mpi

@[simp] theorem setSizeRank_initCount (a b : Int) (s : St) :
    (setSizeRank a b s).initCount = s.initCount := by unfold setSizeRank; split <;> rfl
@[simp] theorem setSizeRank_finiCount (a b : Int) (s : St) :
    (setSizeRank a b s).finiCount = s.finiCount := by unfold setSizeRank; split <;> rfl
@[simp] theorem setMpi_initCount (a b : Int) (s : St) :
    (setMpiSizeRank a b s).initCount = s.initCount := by unfold setMpiSizeRank; split <;> simp
@[simp] theorem setMpi_finiCount (a b : Int) (s : St) :
    (setMpiSizeRank a b s).finiCount = s.finiCount := by unfold setMpiSizeRank; split <;> simp

mutual
theorem run_events (s : St) (c : Call) (hi : 0 ≤ s.initCount) (hf : 0 ≤ s.finiCount) :
    (run s c).2 = Spec.events (decide (0 < s.initCount)) (decide (0 < s.finiCount)) c ∧
    (run s c).1.initCount = s.initCount ∧ (run s c).1.finiCount = s.finiCount := by
  cases c with
  | init w pre body post =>
    simp only [run, Spec.events]
    by_cases h : s.initCount = 0
    · have hc : ((initCount 1 s).initCount == 1) = true := by simp [initCount, h]
      have h0 : decide (0 < s.initCount) = false := by simp; omega
      obtain ⟨p1, p2, p3⟩ := runList_events (initCount 1 s) pre (by simp [initCount]; omega)
        (by simpa [initCount] using hf)
      obtain ⟨b1, b2, b3⟩ := runList_events (runList (initCount 1 s) pre).1 body
        (by rw [p2]; simp [initCount]; omega) (by rw [p3]; simpa [initCount] using hf)
      obtain ⟨q1, q2, q3⟩ := runList_events (runList (runList (initCount 1 s) pre).1 body).1 post
        (by rw [b2, p2]; simp [initCount]; omega) (by rw [b3, p3]; simpa [initCount] using hf)
      have e : decide (0 < (initCount 1 s).initCount) = true := by simp [initCount]; omega
      have e' : (initCount 1 s).finiCount = s.finiCount := rfl
      simp only [hc, if_true, h0]
      rw [p1, b1, q1, b2, b3, p2, p3, e, e']
      refine ⟨by simp, ?_, ?_⟩
      · simp only [initCount] at q2 b2 p2 ⊢; rw [q2, b2, p2]; omega
      · simp only [initCount] at q3 b3 p3 ⊢; rw [q3, b3, p3]
    · have hc : ((initCount 1 s).initCount == 1) = false := by
        simp [initCount]; omega
      have h0 : decide (0 < s.initCount) = true := by simp; omega
      obtain ⟨b1, b2, b3⟩ := runList_events (initCount 1 s) body
        (by simp [initCount]; omega) (by simpa [initCount] using hf)
      have e : decide (0 < (initCount 1 s).initCount) = true := by simp [initCount]; omega
      have e' : (initCount 1 s).finiCount = s.finiCount := rfl
      simp only [hc, Bool.false_eq_true, if_false, h0]
      rw [b1, e, e']
      refine ⟨by simp, ?_, ?_⟩
      · simp only [initCount] at b2 ⊢; rw [b2]; omega
      · simp only [initCount] at b3 ⊢; rw [b3]
  | fini w pre body post =>
    simp only [run, Spec.events]
    by_cases h : s.finiCount = 0
    · have hc : ((finiCount 1 s).finiCount == 1) = true := by simp [finiCount, h]
      have h0 : decide (0 < s.finiCount) = false := by simp; omega
      obtain ⟨p1, p2, p3⟩ := runList_events (finiCount 1 s) pre (by simpa [finiCount] using hi)
        (by simp [finiCount]; omega)
      obtain ⟨b1, b2, b3⟩ := runList_events (runList (finiCount 1 s) pre).1 body
        (by rw [p2]; exact hi) (by rw [p3]; simp [finiCount]; omega)
      obtain ⟨q1, q2, q3⟩ := runList_events (runList (runList (finiCount 1 s) pre).1 body).1 post
        (by rw [b2, p2]; exact hi) (by rw [b3, p3]; simp [finiCount]; omega)
      have e : decide (0 < (finiCount 1 s).finiCount) = true := by
        rw [decide_eq_true_eq]; show 0 < s.finiCount + 1; omega
      have e' : (finiCount 1 s).initCount = s.initCount := rfl
      simp only [hc, if_true, h0]
      rw [p1, b1, q1, b2, b3, p2, p3, e, e']
      refine ⟨by simp, ?_, ?_⟩
      · simp only [finiCount] at q2 b2 p2 ⊢; rw [q2, b2, p2]
      · simp only [finiCount] at q3 b3 p3 ⊢; rw [q3, b3, p3]; omega
    · have hc : ((finiCount 1 s).finiCount == 1) = false := by
        simp [finiCount]; omega
      have h0 : decide (0 < s.finiCount) = true := by simp; omega
      obtain ⟨b1, b2, b3⟩ := runList_events (finiCount 1 s) body
        (by simpa [finiCount] using hi) (by simp [finiCount]; omega)
      have e : decide (0 < (finiCount 1 s).finiCount) = true := by
        rw [decide_eq_true_eq]; show 0 < s.finiCount + 1; omega
      have e' : (finiCount 1 s).initCount = s.initCount := rfl
      simp only [hc, Bool.false_eq_true, if_false, h0]
      rw [b1, e, e']
      refine ⟨by simp, ?_, ?_⟩
      · simp only [finiCount] at b2 ⊢; rw [b2]
      · simp only [finiCount] at b3 ⊢; rw [b3]; omega
  | commRank w body size rank =>
    simp only [run, Spec.events]
    obtain ⟨b1, b2, b3⟩ := runList_events s body hi hf
    exact ⟨by rw [b1], by simp [b2], by simp [b3]⟩
  | setSizeRank size rank =>
    simp [run, Spec.events]

theorem runList_events (s : St) (cs : List Call) (hi : 0 ≤ s.initCount) (hf : 0 ≤ s.finiCount) :
    (runList s cs).2 = Spec.eventsList (decide (0 < s.initCount)) (decide (0 < s.finiCount)) cs ∧
    (runList s cs).1.initCount = s.initCount ∧ (runList s cs).1.finiCount = s.finiCount := by
  cases cs with
  | nil => simp [runList, Spec.eventsList]
  | cons c cs =>
    simp only [runList, Spec.eventsList]
    obtain ⟨a1, a2, a3⟩ := run_events s c hi hf
    obtain ⟨b1, b2, b3⟩ := runList_events (run s c).1 cs (by omega) (by omega)
    rw [a1, b1, a2, a3]
    exact ⟨rfl, by omega, by omega⟩
end

mutual
theorem noPreInit (f : Bool) (c : Call) : Ev.preInit ∉ Spec.events true f c := by
  cases c with
  | init w pre body post => simp [Spec.events, noPreInitList]
  | fini w pre body post =>
    simp only [Spec.events]; cases f <;> simp [noPreInitList]
  | commRank w body size rank => simp [Spec.events, noPreInitList]
  | setSizeRank size rank => simp [Spec.events]
theorem noPreInitList (f : Bool) (cs : List Call) : Ev.preInit ∉ Spec.eventsList true f cs := by
  cases cs with
  | nil => simp [Spec.eventsList]
  | cons c cs => simp [Spec.eventsList, noPreInit, noPreInitList]
end

/-! ## Size and rank -/

/-- How the state mirrors a history. -/
structure Mirror (s : St) (h : List Ev) : Prop where
  count : s.initCount = Spec.openInits h
  seen : (0 < s.maxInit) ↔ Spec.initSeen h = true
  nonneg : 0 ≤ s.initCount
  max : s.initCount ≤ s.maxInit

/-- Value reported by `monitor_mpi_comm_size`/`rank` (mpi.c:121-131). -/
def report (s : St) : Int × Int := (s.size, s.rank)

/-- The invariant: what is stored is the first usable value of the history. -/
structure Ok (s : St) (h : List Ev) : Prop extends Mirror s h where
  unset : s.firstSet = true → Spec.firstUsable [] h = none ∧ report s = (-1, -1) ∧ s.firstMpi = true
  set : s.firstSet = false → Spec.firstUsable [] h = some (report s)

theorem openInits_append (a b : List Ev) :
    Spec.openInits (a ++ b) = Spec.openInits a + Spec.openInits b := by
  simp only [Spec.openInits, List.countP_append]; omega

theorem initSeen_append (a b : List Ev) :
    Spec.initSeen (a ++ b) = (Spec.initSeen a || Spec.initSeen b) := by
  simp [Spec.initSeen]

theorem firstUsable_append (p a b : List Ev) :
    Spec.firstUsable p (a ++ b) =
      (Spec.firstUsable p a).or (Spec.firstUsable (p ++ a) b) := by
  induction a generalizing p with
  | nil => simp [Spec.firstUsable]
  | cons e a ih =>
    cases e with
    | clientSet x y => simp [Spec.firstUsable]
    | rankKnown x y =>
      simp only [List.cons_append, Spec.firstUsable]
      split
      · simp
      · rw [ih]; simp
    | _ => simp only [List.cons_append, Spec.firstUsable]; rw [ih]; simp

/-- An event that is neither a client setting nor a rank answer. -/
def Plain : Ev → Prop
  | .clientSet _ _ => False
  | .rankKnown _ _ => False
  | _ => True

theorem firstUsable_plain (p : List Ev) (e : Ev) (h : Plain e) : Spec.firstUsable p [e] = none := by
  cases e <;> simp_all [Plain, Spec.firstUsable]

theorem Ok.plain {s : St} {h : List Ev} (ok : Ok s h) {e : Ev} (he : Plain e)
    (h1 : Spec.openInits [e] = 0) (h2 : Spec.initSeen [e] = false) : Ok s (h ++ [e]) where
  count := by rw [openInits_append, h1, ok.count]; omega
  seen := by rw [initSeen_append, h2]; simpa using ok.seen
  nonneg := ok.nonneg
  max := ok.max
  unset := fun hs => by
    rw [firstUsable_append]
    simpa [firstUsable_plain _ _ he] using ok.unset hs
  set := fun hs => by
    rw [firstUsable_append]
    simpa [firstUsable_plain _ _ he] using ok.set hs

@[simp] theorem firstUsable_enter (p : List Ev) (w : Nat) :
    Spec.firstUsable p [.initEnter w] = none := rfl
@[simp] theorem firstUsable_leave (p : List Ev) (w : Nat) :
    Spec.firstUsable p [.initLeave w] = none := rfl

theorem Ok.enter {s : St} {h : List Ev} (ok : Ok s h) (w : Nat) :
    Ok (initCount 1 s) (h ++ [.initEnter w]) where
  count := by
    rw [openInits_append]
    have : Spec.openInits [.initEnter w] = 1 := rfl
    rw [this, ← ok.count]; rfl
  seen := by
    rw [initSeen_append]
    have : Spec.initSeen [.initEnter w] = true := rfl
    have h1 := ok.nonneg
    have h2 := ok.max
    simp only [this, Bool.or_true, iff_true, initCount]
    split <;> omega
  nonneg := by have := ok.nonneg; simp only [initCount]; omega
  max := by have h2 := ok.max; have := ok.nonneg; simp only [initCount]; split <;> omega
  unset := fun hs => by
    rw [firstUsable_append]
    simpa [firstUsable_plain, Plain, initCount, report] using ok.unset hs
  set := fun hs => by
    rw [firstUsable_append]
    simpa [firstUsable_plain, Plain, initCount, report] using ok.set hs

theorem Ok.leave {s : St} {h : List Ev} (ok : Ok s h) (w : Nat) (hp : 0 < s.initCount) :
    Ok (initCount (-1) s) (h ++ [.initLeave w]) where
  count := by
    rw [openInits_append]
    have : Spec.openInits [.initLeave w] = -1 := rfl
    rw [this, ← ok.count]; rfl
  seen := by
    rw [initSeen_append]
    have : Spec.initSeen [.initLeave w] = false := rfl
    have h1 := ok.seen
    have h2 := ok.max
    rw [this, Bool.or_false, ← h1]
    simp only [initCount]
    split <;> omega
  nonneg := by simp only [initCount]; omega
  max := by have h2 := ok.max; simp only [initCount]; split <;> omega
  unset := fun hs => by
    rw [firstUsable_append]
    simpa [firstUsable_plain, Plain, initCount, report] using ok.unset hs
  set := fun hs => by
    rw [firstUsable_append]
    simpa [firstUsable_plain, Plain, initCount, report] using ok.set hs

theorem Ok.finiCount {s : St} {h : List Ev} (ok : Ok s h) (i : Int) : Ok (finiCount i s) h where
  count := ok.count
  seen := ok.seen
  nonneg := ok.nonneg
  max := ok.max
  unset := ok.unset
  set := ok.set

theorem Ok.clientSet {s : St} {h : List Ev} (ok : Ok s h) (a b : Int) :
    Ok (setSizeRank a b s) (h ++ [.clientSet a b]) := by
  have e1 : Spec.openInits [Ev.clientSet a b] = 0 := rfl
  have e2 : Spec.initSeen [Ev.clientSet a b] = false := rfl
  have e3 : Spec.firstUsable h [Ev.clientSet a b] = some (a, b) := rfl
  have e4 : (setSizeRank a b s).maxInit = s.maxInit := by unfold setSizeRank; split <;> rfl
  refine ⟨⟨?_, ?_, ?_, ?_⟩, ?_, ?_⟩
  · rw [openInits_append, e1, setSizeRank_initCount, ok.count]; omega
  · rw [initSeen_append, e2, e4]; simpa using ok.seen
  · rw [setSizeRank_initCount]; exact ok.nonneg
  · rw [e4, setSizeRank_initCount]; exact ok.max
  · intro hs
    unfold setSizeRank at hs
    split at hs
    · simp at hs
    · rename_i h'; exact absurd hs h'
  · intro hs
    rw [firstUsable_append, List.nil_append, e3]
    unfold setSizeRank report
    split
    · rename_i h'
      rw [(ok.unset h').1]; rfl
    · rename_i h'
      rw [ok.set (by simpa using h')]; rfl

theorem Ok.rankKnown {s : St} {h : List Ev} (ok : Ok s h) (a b : Int) :
    Ok (setMpiSizeRank a b s) (h ++ [.rankKnown a b]) := by
  have e1 : Spec.openInits [Ev.rankKnown a b] = 0 := rfl
  have e2 : Spec.initSeen [Ev.rankKnown a b] = false := rfl
  have e4 : (setMpiSizeRank a b s).maxInit = s.maxInit := by
    unfold setMpiSizeRank setSizeRank; split
    · split <;> rfl
    · rfl
  have e3 : Spec.firstUsable h [Ev.rankKnown a b] =
      if s.initCount = 0 ∧ 0 < s.maxInit then some (a, b) else none := by
    simp only [Spec.firstUsable]
    rw [← ok.count]
    by_cases h1 : s.initCount = 0 <;> by_cases h2 : 0 < s.maxInit
    · have := ok.seen.1 h2; simp [h1, h2, this]
    · have : Spec.initSeen h = false := by
        cases hc : Spec.initSeen h with
        | false => rfl
        | true => exact absurd (ok.seen.2 hc) h2
      simp [h1, h2, this]
    · simp [h1]
    · simp [h1]
  refine ⟨⟨?_, ?_, ?_, ?_⟩, ?_, ?_⟩
  · rw [openInits_append, e1, setMpi_initCount, ok.count]; omega
  · rw [initSeen_append, e2, e4]; simpa using ok.seen
  · rw [setMpi_initCount]; exact ok.nonneg
  · rw [e4, setMpi_initCount]; exact ok.max
  · intro hs
    rw [firstUsable_append, List.nil_append, e3]
    by_cases hc : (s.firstMpi && (s.initCount == 0) && decide (s.maxInit > 0)) = true
    · unfold setMpiSizeRank at hs
      rw [if_pos hc] at hs
      simp only [setSizeRank] at hs
      split at hs
      · simp at hs
      · rename_i h'; exact absurd hs h'
    · have he : setMpiSizeRank a b s = s := by unfold setMpiSizeRank; rw [if_neg hc]
      rw [he] at hs ⊢
      obtain ⟨u1, u2, u3⟩ := ok.unset hs
      have : ¬ (s.initCount = 0 ∧ 0 < s.maxInit) := by
        intro ⟨c1, c2⟩; apply hc; simp [u3, c1]; omega
      rw [u1, if_neg this]; exact ⟨rfl, u2, u3⟩
  · intro hs
    rw [firstUsable_append, List.nil_append, e3]
    by_cases hf : s.firstSet = true
    · obtain ⟨u1, u2, u3⟩ := ok.unset hf
      rw [u1]
      by_cases hc : (s.firstMpi && (s.initCount == 0) && decide (s.maxInit > 0)) = true
      · have hc' : s.initCount = 0 ∧ 0 < s.maxInit := by
          simp at hc; omega
        unfold setMpiSizeRank
        rw [if_pos hc, if_pos hc']
        simp [setSizeRank, hf, report]
      · have he : setMpiSizeRank a b s = s := by unfold setMpiSizeRank; rw [if_neg hc]
        rw [he, hf] at hs; simp at hs
    · have hf' : s.firstSet = false := by simpa using hf
      have he : report (setMpiSizeRank a b s) = report s := by
        unfold setMpiSizeRank setSizeRank report
        split
        · simp
        · rfl
      rw [ok.set hf', he]; rfl

mutual
theorem run_ok (s : St) (c : Call) (h : List Ev) (ok : Ok s h) (hf : 0 ≤ s.finiCount) :
    Ok (run s c).1 (h ++ (run s c).2) := by
  have hcnt := run_events s c ok.nonneg hf
  cases c with
  | init w pre body post =>
    simp only [run]
    have o1 := ok.enter w
    have f1 : 0 ≤ (initCount 1 s).finiCount := hf
    have i1 : 0 < (initCount 1 s).initCount := by
      have := ok.nonneg; simp only [initCount]; omega
    by_cases hc : ((initCount 1 s).initCount == 1) = true
    · simp only [hc, if_true]
      have op := (o1.plain (e := .preInit) trivial rfl rfl)
      have o2 := runList_ok _ pre _ op f1
      have c2 := runList_events _ pre o1.nonneg f1
      have o3 := o2.plain (e := .realInit w) trivial rfl rfl
      have f2 : 0 ≤ (runList (initCount 1 s) pre).1.finiCount := by rw [c2.2.2]; exact f1
      have o4 := runList_ok _ body _ o3 f2
      have c4 := runList_events _ body o2.nonneg f2
      have o5 := (o4.plain (e := .realInitRet w) trivial rfl rfl).plain (e := .initMpi) trivial rfl rfl
      have f4 : 0 ≤ (runList (runList (initCount 1 s) pre).1 body).1.finiCount := by
        rw [c4.2.2]; exact f2
      have o6 := runList_ok _ post _ o5 f4
      have c6 := runList_events _ post o4.nonneg f4
      have o7 := o6.leave w (by rw [c6.2.1, c4.2.1, c2.2.1]; exact i1)
      simpa using o7
    · simp only [hc]
      have o3 := o1.plain (e := .realInit w) trivial rfl rfl
      have o4 := runList_ok _ body _ o3 f1
      have c4 := runList_events _ body o1.nonneg f1
      have o5 := (o4.plain (e := .realInitRet w) trivial rfl rfl)
      have o7 := o5.leave w (by rw [c4.2.1]; exact i1)
      simpa using o7
  | fini w pre body post =>
    simp only [run]
    have o1 := (ok.finiCount 1).plain (e := .finiEnter w) trivial rfl rfl
    have f1 : 0 ≤ (finiCount 1 s).finiCount := by simp only [finiCount]; omega
    by_cases hc : ((finiCount 1 s).finiCount == 1) = true
    · simp only [hc, if_true]
      have op := (o1.plain (e := .finiMpi) trivial rfl rfl)
      have o2 := runList_ok _ pre _ op f1
      have c2 := runList_events _ pre o1.nonneg f1
      have o3 := o2.plain (e := .realFini w) trivial rfl rfl
      have f2 : 0 ≤ (runList (finiCount 1 s) pre).1.finiCount := by rw [c2.2.2]; exact f1
      have o4 := runList_ok _ body _ o3 f2
      have c4 := runList_events _ body o2.nonneg f2
      have o5 := (o4.plain (e := .realFiniRet w) trivial rfl rfl).plain (e := .postFini) trivial rfl rfl
      have f4 : 0 ≤ (runList (runList (finiCount 1 s) pre).1 body).1.finiCount := by
        rw [c4.2.2]; exact f2
      have o6 := runList_ok _ post _ o5 f4
      have o7 := (o6.finiCount (-1)).plain (e := .finiLeave w) trivial rfl rfl
      simpa using o7
    · simp only [hc]
      have o3 := o1.plain (e := .realFini w) trivial rfl rfl
      have o4 := runList_ok _ body _ o3 f1
      have o5 := (o4.plain (e := .realFiniRet w) trivial rfl rfl)
      have o7 := (o5.finiCount (-1)).plain (e := .finiLeave w) trivial rfl rfl
      simpa using o7
  | commRank w body size rank =>
    simp only [run]
    have := (runList_ok s body h ok hf).rankKnown size rank
    simpa using this
  | setSizeRank size rank =>
    simp only [run]; exact ok.clientSet size rank
theorem runList_ok (s : St) (cs : List Call) (h : List Ev) (ok : Ok s h) (hf : 0 ≤ s.finiCount) :
    Ok (runList s cs).1 (h ++ (runList s cs).2) := by
  cases cs with
  | nil => simpa [runList] using ok
  | cons c cs =>
    simp only [runList]
    have o1 := run_ok s c h ok hf
    have c1 := run_events s c ok.nonneg hf
    have o2 := runList_ok _ cs _ o1 (by rw [c1.2.2]; exact hf)
    simpa using o2
end

theorem ok_initial : Ok {} [] where
  count := rfl
  seen := by simp [Spec.initSeen]
  nonneg := by decide
  max := by decide
  unset := fun _ => ⟨rfl, rfl, rfl⟩
  set := fun h => by simp at h

theorem runList_append (s : St) (a b : List Call) :
    runList s (a ++ b) = ((runList (runList s a).1 b).1, (runList s a).2 ++ (runList (runList s a).1 b).2) := by
  induction a generalizing s with
  | nil => simp [runList]
  | cons c a ih => simp only [List.cons_append, runList]; rw [ih]; simp

end Libmonitor.Mpi
