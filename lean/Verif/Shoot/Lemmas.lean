import Verif.Shoot.Spec

/-!
# Facts about the scan loop
-/

namespace Libmonitor.Shoot

open Spec

def pStarted (f : Flags) : Bool := !f.self && f.appl && f.started
def pUnstarted (f : Flags) : Bool := !f.self && f.appl && !f.started
def pUnfinished (f : Flags) : Bool := !f.self && f.appl && !f.done

/-- Positions (from `i`) of the threads that have to be signalled. -/
def toKill (i : Nat) : List Flags → List Nat
  | [] => []
  | f :: l => (if pUnstarted f then [i] else []) ++ toKill (i + 1) l

theorem scanFrom_eq : ∀ (l : List Flags) (i : Nat) (c : Count),
    (scanFrom i l c).started = c.started + l.countP pStarted ∧
    (scanFrom i l c).unstarted = c.unstarted + l.countP pUnstarted ∧
    (scanFrom i l c).unfinished = c.unfinished + l.countP pUnfinished ∧
    (scanFrom i l c).kills = c.kills ++ toKill i l
  | [], _, _ => by simp [scanFrom, toKill]
  | f :: l, i, c => by
    have ih := scanFrom_eq l (i + 1) (visit c i f)
    simp only [scanFrom, ih.1, ih.2.1, ih.2.2.1, ih.2.2.2, List.countP_cons, toKill]
    obtain ⟨s, a, st, d⟩ := f
    cases s <;> cases a <;> cases st <;> cases d <;>
      simp [visit, pStarted, pUnstarted, pUnfinished] <;> omega

theorem scan_started (l : List Flags) : (scan l).started = l.countP pStarted := by
  simpa [scan] using (scanFrom_eq l 0 {}).1
theorem scan_unstarted (l : List Flags) : (scan l).unstarted = l.countP pUnstarted := by
  simpa [scan] using (scanFrom_eq l 0 {}).2.1
theorem scan_unfinished (l : List Flags) : (scan l).unfinished = l.countP pUnfinished := by
  simpa [scan] using (scanFrom_eq l 0 {}).2.2.1
theorem scan_kills (l : List Flags) : (scan l).kills = toKill 0 l := by
  simpa [scan] using (scanFrom_eq l 0 {}).2.2.2

theorem begun_eq (o : Obs) : begun o = (scan o.thr).started := by
  rw [scan_started]; rfl

theorem unfinished_zero (o : Obs) : (scan o.thr).unfinished = 0 ↔ AllDone o := by
  rw [scan_unfinished, List.countP_eq_zero]
  constructor
  · intro h f hf hw
    have := h f hf
    simp only [pUnfinished, hw.1, hw.2, Bool.not_false, Bool.true_and] at this
    cases hd : f.done with
    | true => rfl
    | false => simp [hd] at this
  · intro h f hf k
    simp only [pUnfinished, Bool.and_eq_true, Bool.not_eq_true'] at k
    have := h f hf ⟨k.1.1, k.1.2⟩
    rw [k.2] at this; cases this

theorem toKill_mem : ∀ (l : List Flags) (i j : Nat),
    j ∈ toKill i l ↔ ∃ f, i ≤ j ∧ l[j - i]? = some f ∧ pUnstarted f = true
  | [], i, j => by simp [toKill]
  | f :: l, i, j => by
    have ih := toKill_mem l (i + 1) j
    simp only [toKill, List.mem_append, ih]
    constructor
    · rintro (h | ⟨g, h1, h2, h3⟩)
      · split at h
        · rename_i hp
          simp only [List.mem_singleton] at h
          subst h
          exact ⟨f, Nat.le_refl _, by simp, hp⟩
        · simp at h
      · refine ⟨g, by omega, ?_, h3⟩
        have e : j - i = (j - (i + 1)) + 1 := by omega
        rw [e]; simpa using h2
    · rintro ⟨g, h1, h2, h3⟩
      by_cases k : j = i
      · subst k
        simp only [Nat.sub_self, List.getElem?_cons_zero, Option.some.injEq] at h2
        subst h2
        exact .inl (by simp [h3])
      · refine .inr ⟨g, by omega, ?_, h3⟩
        have e : j - i = (j - (i + 1)) + 1 := by omega
        rw [e] at h2; simpa using h2

theorem toKill_sorted : ∀ (l : List Flags) (i : Nat), (toKill i l).Pairwise (· < ·)
  | [], _ => by simp [toKill]
  | f :: l, i => by
    simp only [toKill]
    rw [List.pairwise_append]
    refine ⟨by split <;> simp, toKill_sorted l (i + 1), ?_⟩
    intro a ha b hb
    have := ((toKill_mem l (i + 1) b).1 hb)
    obtain ⟨_, h, _⟩ := this
    split at ha
    · simp only [List.mem_singleton] at ha; omega
    · simp at ha

/-- What the loop remembers before iteration `k`. -/
structure Mem (t0 : Time) (obs : Nat → Obs) (k : Nat) (s : Loc) : Prop where
  ub : ∀ j < k, begun (obs j) ≤ s.lastStarted
  src : (s.lastStarted = 0 ∧ s.last = t0) ∨
    ∃ j < k, s.last = (obs j).now ∧ s.lastStarted = begun (obs j) ∧ Progress obs j

theorem status_mem (t0 : Time) (obs : Nat → Obs) : ∀ (k : Nat) (s : Loc),
    status t0 obs k = .running s → Mem t0 obs k s
  | 0, s, h => by
    simp only [status, Status.running.injEq] at h
    subst h
    exact ⟨fun j hj => absurd hj (Nat.not_lt_zero _), .inl ⟨rfl, rfl⟩⟩
  | k + 1, s, h => by
    simp only [status] at h
    cases hk : status t0 obs k with
    | finished m => simp [hk] at h
    | gaveUp m => simp [hk] at h
    | running s0 =>
      have M := status_mem t0 obs k s0 hk
      simp only [hk] at h
      unfold iter at h
      simp only [← begun_eq] at h
      by_cases h1 : (scan (obs k).thr).unfinished = 0
      · simp [h1] at h
      · simp only [h1, if_false] at h
        by_cases h2 : begun (obs k) > s0.lastStarted
        · simp only [h2, if_true, Status.running.injEq] at h
          subst h
          refine ⟨fun j hj => ?_, .inr ⟨k, by omega, rfl, rfl, by omega, fun i hi => ?_⟩⟩
          · rcases Nat.lt_succ_iff_lt_or_eq.1 hj with hj | rfl
            · have := M.ub j hj; simp only; omega
            · exact Nat.le_refl _
          · have := M.ub i hi; omega
        · simp only [h2, if_false] at h
          have hs : s0 = s := by
            split at h
            · rename_i a; split at a
              · cases a
              · cases a
            · rename_i a; split at a
              · simp at h
              · cases a
            · rename_i a; split at a
              · cases a
              · simp only [Iter.again.injEq] at a
                simp only [Status.running.injEq] at h
                exact a.trans h
          subst hs
          refine ⟨fun j hj => ?_, ?_⟩
          · rcases Nat.lt_succ_iff_lt_or_eq.1 hj with hj | rfl
            · exact M.ub j hj
            · omega
          · rcases M.src with h | ⟨j, hj, h⟩
            · exact .inl h
            · exact .inr ⟨j, by omega, h⟩

/-- A loop that has ended was running at the iteration in which it ended. -/
theorem status_end (t0 : Time) (obs : Nat → Obs) : ∀ (n k : Nat),
    (status t0 obs n = .finished k → k < n ∧ ∃ s, status t0 obs k = .running s ∧
      iter s (obs k) = .finished) ∧
    (status t0 obs n = .gaveUp k → k < n ∧ ∃ s, status t0 obs k = .running s ∧
      iter s (obs k) = .gaveUp)
  | 0, k => by simp [status]
  | n + 1, k => by
    have ih := status_end t0 obs n k
    simp only [status]
    cases hn : status t0 obs n with
    | finished m =>
      simp only [hn] at ih
      constructor
      · intro h
        have := ih.1 h
        exact ⟨by omega, this.2⟩
      · intro h; simp at h
    | gaveUp m =>
      simp only [hn] at ih
      constructor
      · intro h; simp at h
      · intro h
        have := ih.2 h
        exact ⟨by omega, this.2⟩
    | running s =>
      cases hi : iter s (obs n) with
      | finished =>
        simp only [hi]
        refine ⟨fun h => ?_, fun h => by simp at h⟩
        simp only [Status.finished.injEq] at h
        subst h
        exact ⟨by omega, s, hn, hi⟩
      | gaveUp =>
        simp only [hi]
        refine ⟨fun h => by simp at h, fun h => ?_⟩
        simp only [Status.gaveUp.injEq] at h
        subst h
        exact ⟨by omega, s, hn, hi⟩
      | again s' => simp [hi]

/-- Once ended, always ended. -/
theorem status_stays (t0 : Time) (obs : Nat → Obs) (n : Nat) :
    ∀ d, (∀ s, status t0 obs n ≠ .running s) → status t0 obs (n + d) = status t0 obs n
  | 0, _ => rfl
  | d + 1, h => by
    have ih := status_stays t0 obs n d h
    rw [← Nat.add_assoc, status, ih]
    cases hs : status t0 obs n with
    | running s => exact absurd hs (h s)
    | finished k => rfl
    | gaveUp k => rfl

/-- Pointwise implication gives the order of the counts. -/
theorem countP_mono {p : Flags → Bool} : ∀ (l₁ l₂ : List Flags), l₁.length = l₂.length →
    (∀ (i : Nat) f g, l₁[i]? = some f → l₂[i]? = some g → p f = true → p g = true) →
    l₁.countP p ≤ l₂.countP p
  | [], [], _, _ => Nat.le_refl _
  | a :: l₁, b :: l₂, hl, h => by
    have ih := countP_mono l₁ l₂ (by simpa using hl) (fun i f g hf hg => h (i + 1) f g
      (by simpa using hf) (by simpa using hg))
    have h0 := h 0 a b (by simp) (by simp)
    simp only [List.countP_cons]
    cases ha : p a with
    | false => simp; omega
    | true => simp [h0 ha]; omega
  | [], _ :: _, hl, _ => by simp at hl
  | _ :: _, [], hl, _ => by simp at hl

theorem countP_strict {p : Flags → Bool} : ∀ (l₁ l₂ : List Flags), l₁.length = l₂.length →
    (∀ (i : Nat) f g, l₁[i]? = some f → l₂[i]? = some g → p f = true → p g = true) →
    (∃ (i : Nat) (f g : Flags), l₁[i]? = some f ∧ l₂[i]? = some g ∧ p f = false ∧ p g = true) →
    l₁.countP p < l₂.countP p
  | [], [], _, _, ⟨i, f, g, h, _⟩ => by simp at h
  | a :: l₁, b :: l₂, hl, h, ⟨i, f, g, hf, hg, pf, pg⟩ => by
    have hl' : l₁.length = l₂.length := by simpa using hl
    have htail : ∀ (i : Nat) f g, l₁[i]? = some f → l₂[i]? = some g → p f = true → p g = true :=
      fun i f g hf hg => h (i + 1) f g (by simpa using hf) (by simpa using hg)
    have h0 := h 0 a b (by simp) (by simp)
    simp only [List.countP_cons]
    cases i with
    | zero =>
      simp only [List.getElem?_cons_zero, Option.some.injEq] at hf hg
      subst hf hg
      have := countP_mono l₁ l₂ hl' htail
      simp [pf, pg]; omega
    | succ i =>
      have ih := countP_strict l₁ l₂ hl' htail
        ⟨i, f, g, by simpa using hf, by simpa using hg, pf, pg⟩
      cases ha : p a with
      | false => simp; omega
      | true => simp [h0 ha]; omega
  | [], _ :: _, hl, _, _ => by simp at hl
  | _ :: _, [], hl, _, _ => by simp at hl

theorem frozen_self {obs : Nat → Obs} {n : Nat} (F : Frozen obs n) {k m i : Nat} {f g : Flags}
    (hf : (obs k).thr[i]? = some f) (hg : (obs m).thr[i]? = some g) : f.self = g.self := by
  have a := F.self k i
  have b := F.self m i
  rw [hf] at a; rw [hg] at b
  simp only [Option.map_some] at a b
  rw [← b] at a
  exact Option.some.inj a

/-- A thread that begins finishing is progress. -/
theorem begins_progress {obs : Nat → Obs} {n : Nat} (F : Frozen obs n) {i j : Nat}
    (B : Begins obs i j) : Progress obs j := by
  obtain ⟨⟨f, hf, hw, hs⟩, hb⟩ := B
  have pf : pStarted f = true := by simp [pStarted, hw.1, hw.2, hs]
  refine ⟨?_, fun k hk => ?_⟩
  · show 0 < (obs j).thr.countP pStarted
    rw [List.countP_pos_iff]
    exact ⟨f, List.mem_of_getElem? hf, pf⟩
  · refine countP_strict (p := pStarted) _ _ ((F.len k).trans (F.len j).symm) ?_ ?_
    · intro m a b ha hb' pa
      simp only [pStarted, Bool.and_eq_true, Bool.not_eq_true'] at pa ⊢
      have e := frozen_self F ha hb'
      exact ⟨⟨e ▸ pa.1.1, F.appl k j m a b (by omega) ha hb' pa.1.2⟩,
        F.started k j m a b (by omega) ha hb' pa.2⟩
    · have hlt : i < (obs k).thr.length := by
        rw [F.len k, ← F.len j]
        exact (List.getElem?_eq_some_iff.1 hf).1
      refine ⟨i, (obs k).thr[i], f, by simp [hlt], hf, ?_, pf⟩
      have hk' : (obs k).thr[i]? = some (obs k).thr[i] := by simp [hlt]
      have := hb k hk _ hk'
      cases hp : pStarted (obs k).thr[i] with
      | false => rfl
      | true =>
        simp only [pStarted, Bool.and_eq_true, Bool.not_eq_true'] at hp
        exact absurd ⟨⟨hp.1.1, hp.1.2⟩, hp.2⟩ this

/-- A bounded sequence that never decreases is eventually constant. -/
theorem eventually_const (f : Nat → Nat) (n : Nat) (hb : ∀ k, f k ≤ n)
    (hm : ∀ k, f k ≤ f (k + 1)) : ∃ K, ∀ k, K ≤ k → f k = f K := by
  have hm' : ∀ a d, f a ≤ f (a + d) := by
    intro a d
    induction d with
    | zero => exact Nat.le_refl _
    | succ d ih => exact Nat.le_trans ih (hm _)
  have key : ∀ d K, n - f K ≤ d → ∃ K, ∀ k, K ≤ k → f k = f K := by
    intro d
    induction d with
    | zero =>
      intro K hK
      refine ⟨K, fun k hk => ?_⟩
      have h1 := hm' K (k - K)
      have h2 := hb k
      have e : K + (k - K) = k := by omega
      rw [e] at h1
      have := hb K
      omega
    | succ d ih =>
      intro K hK
      by_cases h : ∃ k, K ≤ k ∧ f k ≠ f K
      · obtain ⟨k, hk, hne⟩ := h
        have h1 := hm' K (k - K)
        have e : K + (k - K) = k := by omega
        rw [e] at h1
        have := hb k
        exact ih k (by omega)
      · refine ⟨K, fun k hk => ?_⟩
        cases hd : decide (f k = f K) with
        | true => exact of_decide_eq_true hd
        | false => exact absurd ⟨k, hk, of_decide_eq_false hd⟩ h
  exact key _ 0 (Nat.le_refl _)

/-- Finitely many "eventually always" hold together. -/
theorem eventually_all (P : Nat → Nat → Prop) : ∀ n, (∀ i < n, ∃ m, ∀ k, m ≤ k → P i k) →
    ∃ M, ∀ i < n, ∀ k, M ≤ k → P i k
  | 0, _ => ⟨0, fun i hi => absurd hi (Nat.not_lt_zero _)⟩
  | n + 1, h => by
    obtain ⟨M, hM⟩ := eventually_all P n (fun i hi => h i (by omega))
    obtain ⟨m, hm⟩ := h n (by omega)
    refine ⟨max M m, fun i hi k hk => ?_⟩
    rcases Nat.lt_succ_iff_lt_or_eq.1 hi with hi | rfl
    · exact hM i hi k (by omega)
    · exact hm k (by omega)

end Libmonitor.Shoot
