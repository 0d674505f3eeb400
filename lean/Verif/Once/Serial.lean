import Verif.Once.Lemmas

/-!
# Invariants for C83: the main record
-/

namespace Libmonitor.Once

def inE : P → Bool
  | some (.set .early, _) | some (.e1, _) | some (.e2, _) => true
  | _ => false

def inN : P → Bool
  | some (.set .normal, _) | some (.n2, _) => true
  | some (_, k) => k.contains .n2
  | none => false

def passed : P → Bool
  | some (p, k) => [.n2, .l2, .l3, .p1, .p2, .p3, .p4, .p5].contains p || k.contains .p4
  | none => false

/-- What can be still to do, for each function. -/
def shape : P → Bool
  | none => true
  | some (.test .lib, k) | some (.set .lib, k) | some (.l2, k) | some (.l3, k) => [[], [.p4]].contains k
  | some (.test .normal, k) | some (.set .normal, k) | some (.n2, k) =>
    [[], [.p1], [.l2], [.l2, .p4]].contains k
  | some (.test .early, k) | some (.set .early, k) | some (.e1, k) | some (.e2, k) =>
    [[], [.n2], [.n2, .p1], [.n2, .l2], [.n2, .l2, .p4]].contains k
  | some (_, k) => k == []

theorem inE_iff {s : S} {c : Call} : inE (s.pc c) = true ↔ Inside s c .early := by
  simp only [Inside]
  constructor
  · intro h
    cases e : s.pc c with
    | none => rw [e] at h; cases h
    | some a =>
      obtain ⟨p, k⟩ := a
      rw [e] at h
      refine ⟨p, k, rfl, ?_⟩
      cases p with
      | set x => cases x <;> first | exact Or.inl rfl | cases h
      | e1 => exact Or.inr (Or.inl rfl)
      | e2 => exact Or.inr (Or.inr rfl)
      | _ => cases h
  · rintro ⟨p, k, h, rfl | rfl | rfl⟩ <;> rw [h] <;> rfl

theorem inN_iff {s : S} {c : Call} : inN (s.pc c) = true ↔ Inside s c .normal := by
  simp only [Inside]
  constructor
  · intro h
    cases e : s.pc c with
    | none => rw [e] at h; cases h
    | some a =>
      obtain ⟨p, k⟩ := a
      rw [e] at h
      refine ⟨p, k, rfl, ?_⟩
      cases p with
      | set x => cases x <;> first | exact Or.inl rfl | exact Or.inr (Or.inr (by simpa [inN] using h))
      | n2 => exact Or.inr (Or.inl rfl)
      | _ => exact Or.inr (Or.inr (by simpa [inN] using h))
  · rintro ⟨p, k, h, rfl | rfl | h'⟩ <;> rw [h]
    · rfl
    · rfl
    · cases p with
      | set x => cases x <;> simp [inN, h']
      | _ => simp [inN, h']

/-- The record is initialised, and it is over. -/
structure Ready (s : S) : Prop where
  run : s.run .early = true
  magic : s.magic = true
  out : ∀ d, inE (s.pc d) = false

structure Inv (s : S) : Prop where
  fresh : ∀ c, s.nextC ≤ c → s.pc c = none
  shp : ∀ c, shape (s.pc c) = true
  eu : ∀ c d, inE (s.pc c) = true → inE (s.pc d) = true → c = d
  e0 : s.run .early = false → ∀ d, inE (s.pc d) = true → betw .early (s.pc d)
  e1 : s.run .early = true → (∀ d, ¬ betw .early (s.pc d)) ∧ ((∃ d, inE (s.pc d) = true) ∨ Ready s)
  nu : ∀ c d, inN (s.pc c) = true → inN (s.pc d) = true → c = d
  n0 : s.run .normal = false → ∀ d, inN (s.pc d) = true → betw .normal (s.pc d)
  n1 : s.run .normal = true → (∀ d, ¬ betw .normal (s.pc d)) ∧ ((∃ d, inN (s.pc d) = true) ∨ Ready s)
  past : ∀ c, passed (s.pc c) = true → Ready s
  seen : ∀ e ∈ s.tr, Behind e → Ready s
  dat : s.data = lastData s.tr

theorem betw_inE {q : P} (h : betw .early q) : inE q = true := by
  match q, h with
  | some (.set _, _), h => cases h; rfl

theorem betw_inN {q : P} (h : betw .normal q) : inN q = true := by
  match q, h with
  | some (.set _, _), h => cases h; rfl

theorem upd_fresh {s : S} (h : Inv s) {c : Call} {q : P} (hc : s.pc c ≠ none) :
    ∀ d, s.nextC ≤ d → upd s.pc c q d = none := by
  intro d hd
  have := h.fresh d hd
  by_cases e : d = c
  · exact absurd (e ▸ this) hc
  · rwa [upd_ne e]

theorem upd_all {f : Call → P} {g : P → Bool} {b : Bool} {c : Call} {q : P} (hf : ∀ d, d ≠ c → g (f d) = b)
    (hq : g q = b) : ∀ d, g (upd f c q d) = b := by
  intro d
  by_cases e : d = c
  · rw [e, upd_self]; exact hq
  · rw [upd_ne e]; exact hf d e

/-- A step of a call that is outside monitor_early_init before and after it. -/
theorem inv_plain {s s' : S} (h : Inv s) {c : Call} {q : P} (hrun : ∀ x, x ≠ .lib → s'.run x = s.run x)
    (hmag : s'.magic = s.magic) (hpc : s'.pc = upd s.pc c q) (hnc : s'.nextC = s.nextC)
    (hsome : s.pc c ≠ none) (hshape : shape q = true) (hE : inE q = inE (s.pc c)) (hN : inN q = inN (s.pc c))
    (hbE : betw .early q ↔ betw .early (s.pc c)) (hbN : betw .normal q ↔ betw .normal (s.pc c))
    (hpast : passed q = true → Ready s)
    (hev : ∀ e ∈ s'.tr, Behind e → e ∈ s.tr ∨ Ready s) (hdat : s'.data = lastData s'.tr) : Inv s' := by
  have eqE : ∀ d, inE (s'.pc d) = inE (s.pc d) := by
    intro d; rw [hpc]
    by_cases e : d = c
    · rw [e, upd_self, hE]
    · rw [upd_ne e]
  have eqN : ∀ d, inN (s'.pc d) = inN (s.pc d) := by
    intro d; rw [hpc]
    by_cases e : d = c
    · rw [e, upd_self, hN]
    · rw [upd_ne e]
  have eqbE : ∀ d, betw .early (s'.pc d) ↔ betw .early (s.pc d) := by
    intro d; rw [hpc]
    by_cases e : d = c
    · rw [e, upd_self, hbE]
    · rw [upd_ne e]
  have eqbN : ∀ d, betw .normal (s'.pc d) ↔ betw .normal (s.pc d) := by
    intro d; rw [hpc]
    by_cases e : d = c
    · rw [e, upd_self, hbN]
    · rw [upd_ne e]
  have rE := hrun .early nofun
  have rN := hrun .normal nofun
  have rdy : Ready s → Ready s' := fun r => ⟨rE ▸ r.run, hmag ▸ r.magic, fun d => (eqE d).trans (r.out d)⟩
  refine ⟨?_, ?_, ?_, ?_, ?_, ?_, ?_, ?_, ?_, ?_, hdat⟩
  · rw [hpc, hnc]; exact upd_fresh h hsome
  · rw [hpc]; exact upd_all (fun d _ => h.shp d) hshape
  · intro a b; rw [eqE, eqE]; exact h.eu a b
  · intro r d; rw [eqE, eqbE]; exact h.e0 (rE ▸ r) d
  · intro r
    obtain ⟨r1, r2⟩ := h.e1 (rE ▸ r)
    refine ⟨fun d k => r1 d ((eqbE d).1 k), r2.imp (fun ⟨d, k⟩ => ⟨d, (eqE d).trans k⟩) rdy⟩
  · intro a b; rw [eqN, eqN]; exact h.nu a b
  · intro r d; rw [eqN, eqbN]; exact h.n0 (rN ▸ r) d
  · intro r
    obtain ⟨r1, r2⟩ := h.n1 (rN ▸ r)
    refine ⟨fun d k => r1 d ((eqbN d).1 k), r2.imp (fun ⟨d, k⟩ => ⟨d, (eqN d).trans k⟩) rdy⟩
  · intro d k
    rw [hpc] at k
    by_cases e : d = c
    · rw [e, upd_self] at k; exact rdy (hpast k)
    · rw [upd_ne e] at k; exact rdy (h.past d k)
  · intro e he hb
    rcases hev e he hb with k | k
    · exact rdy (h.seen e k hb)
    · exact rdy k

/-- A call returns from a function of which it is outside already. -/
theorem inv_ret {s s' : S} (h : Inv s) {c : Call} {p : Step} {k : List Ret} (hp : s.pc c = some (p, k))
    (hrun : s'.run = s.run) (hmag : s'.magic = s.magic) (hpc : s'.pc = upd s.pc c (retP k))
    (hnc : s'.nextC = s.nextC) (hout : p ∉ [.set .early, .set .normal, .set .lib, .e1, .e2, .n2])
    (hr : p ≠ .test .lib → Ready s)
    (hev : ∀ e ∈ s'.tr, Behind e → e ∈ s.tr ∨ Ready s) (hdat : s'.data = lastData s'.tr) : Inv s' := by
  have hs := h.shp c
  rw [hp] at hs
  have hpast := h.past c
  rw [hp] at hpast
  have key : shape (retP k) = true ∧ inE (retP k) = inE (some (p, k)) ∧ inN (retP k) = inN (some (p, k)) ∧
      (betw .early (retP k) ↔ betw .early (some (p, k))) ∧ (betw .normal (retP k) ↔ betw .normal (some (p, k))) ∧
      (p = .test .lib → passed (retP k) = true → passed (some (p, k)) = true) := by
    rcases p with x | x | - | - | - | - | - | - | - | - | - | - <;> (try rcases x) <;>
      (first | (simp at hout; done) | skip) <;>
      (simp only [shape, List.contains_cons, List.contains_nil, Bool.or_false, Bool.or_eq_true, beq_iff_eq] at hs) <;>
      (first
        | (rcases hs with rfl | rfl | rfl | rfl | rfl)
        | (rcases hs with rfl | rfl | rfl | rfl)
        | (rcases hs with rfl | rfl)
        | (subst hs)) <;>
      refine ⟨by decide, by decide, by decide, ?_, ?_, ?_⟩ <;>
      first | exact Iff.rfl | (intro h; cases h; done) | (intro _; decide)
  obtain ⟨k1, k2, k3, k4, k5, k6⟩ := key
  refine inv_plain h (fun x _ => by rw [hrun]) hmag hpc hnc (by rw [hp]; nofun) k1 (by rw [hp]; exact k2)
    (by rw [hp]; exact k3) (by rw [hp]; exact k4) (by rw [hp]; exact k5) (fun k => ?_) hev hdat
  by_cases e : p = .test .lib
  · exact hpast (k6 e k)
  · exact hr e

theorem upd_same {α : Sort _} {f : Call → P} (g : P → α) {c : Call} {q : P} (hq : g q = g (f c)) :
    ∀ d, g (upd f c q d) = g (f d) := by
  intro d
  by_cases e : d = c
  · rw [e, upd_self, hq]
  · rw [upd_ne e]

theorem lastData_zero {tr : List Ev} (h : ∀ c d, Ev.data c d ∉ tr) : lastData tr = 0 := by
  induction tr with
  | nil => rfl
  | cons e r ih =>
    have := ih fun c d k => h c d (List.mem_cons_of_mem _ k)
    cases e with
    | data c d => exact absurd List.mem_cons_self (h c d)
    | _ => exact this

theorem inv_testEarly {s : S} (h : Inv s) {c : Call} {k : List Ret} (hp : s.pc c = some (.test .early, k))
    (hr : s.run .early = false) (hn : ∀ d, inE (s.pc d) = false) : Inv (s.goto c (some (.set .early, k))) := by
  have nr : ∀ {a : Prop}, Ready s → a := fun r => by rw [r.run] at hr; cases hr
  have hs := h.shp c
  rw [hp] at hs
  have eqN := upd_same (f := s.pc) inN (c := c) (q := some (.set .early, k)) (by rw [hp]; rfl)
  have eqbN := upd_same (f := s.pc) (betw .normal) (c := c) (q := some (.set .early, k))
    (by rw [hp]; simp [betw])
  have eqP := upd_same (f := s.pc) passed (c := c) (q := some (.set .early, k)) (by rw [hp]; rfl)
  have only : ∀ d, inE (upd s.pc c (some (.set .early, k)) d) = true → d = c := by
    intro d hd
    by_cases e : d = c
    · exact e
    · rw [upd_ne e, hn] at hd; cases hd
  refine ⟨upd_fresh h (by rw [hp]; nofun), upd_all (fun d _ => h.shp d) hs, ?_, ?_, ?_, ?_, ?_, ?_, ?_, ?_, h.dat⟩
  · intro a b ha hb; rw [only a ha, only b hb]
  · intro _ d hd
    rw [goto_pc, only d hd, upd_self]; rfl
  · intro r; rw [goto_run, hr] at r; cases r
  · intro a b; rw [goto_pc, eqN, eqN]; exact h.nu a b
  · intro r d; rw [goto_pc, eqN, eqbN]; exact h.n0 r d
  · intro r
    obtain ⟨r1, r2⟩ := h.n1 r
    refine ⟨fun d e => r1 d (eqbN d ▸ e), ?_⟩
    rcases r2 with ⟨d, e⟩ | r2
    · exact Or.inl ⟨d, (eqN d).trans e⟩
    · exact nr r2
  · intro d e; exact nr (h.past d ((eqP d).symm.trans e))
  · intro e he hb; exact nr (h.seen e he hb)

theorem run_of_in {s : S} (h : Inv s) {c : Call} (hi : inE (s.pc c) = true) (hb : ¬ betw .early (s.pc c)) :
    s.run .early = true := by
  cases hr : s.run .early with
  | true => rfl
  | false => exact absurd (h.e0 hr c hi) hb

/-- monitor_early_init goes on, and is not finished. -/
theorem inv_inEarly {s s' : S} (h : Inv s) {c : Call} {p p' : Step} {k : List Ret} (hp : s.pc c = some (p, k))
    (hi : p = .set .early ∧ p' = .e1 ∨ p = .e1 ∧ p' = .e2)
    (hrE : s'.run .early = true) (hrN : s'.run .normal = s.run .normal)
    (hpc : s'.pc = upd s.pc c (some (p', k))) (hnc : s'.nextC = s.nextC)
    (hev : ∀ e ∈ s'.tr, Behind e → e ∈ s.tr) (hdat : s'.data = lastData s'.tr) : Inv s' := by
  have hc : inE (s.pc c) = true := by rw [hp]; rcases hi with ⟨rfl, -⟩ | ⟨rfl, -⟩ <;> rfl
  have hq : inE (some (p', k)) = true := by rcases hi with ⟨-, rfl⟩ | ⟨-, rfl⟩ <;> rfl
  have nr : ∀ {a : Prop}, Ready s → a := fun r => by have := r.out c; rw [hc] at this; cases this
  have hs := h.shp c
  rw [hp] at hs
  have hs' : shape (some (p', k)) = true := by rcases hi with ⟨rfl, rfl⟩ | ⟨rfl, rfl⟩ <;> exact hs
  have eqE := upd_same (f := s.pc) inE (c := c) (q := some (p', k)) (hq.trans hc.symm)
  have eqN := upd_same (f := s.pc) inN (c := c) (q := some (p', k))
    (by rw [hp]; rcases hi with ⟨rfl, rfl⟩ | ⟨rfl, rfl⟩ <;> rfl)
  have eqbN := upd_same (f := s.pc) (betw .normal) (c := c) (q := some (p', k))
    (by rw [hp]; rcases hi with ⟨rfl, rfl⟩ | ⟨rfl, rfl⟩ <;> simp [betw])
  have eqP := upd_same (f := s.pc) passed (c := c) (q := some (p', k))
    (by rw [hp]; rcases hi with ⟨rfl, rfl⟩ | ⟨rfl, rfl⟩ <;> rfl)
  have nb : ∀ d, ¬ betw .early (upd s.pc c (some (p', k)) d) := by
    intro d hd
    have := h.eu d c ((eqE d).symm.trans (betw_inE hd)) hc
    rw [this, upd_self] at hd
    rcases hi with ⟨-, rfl⟩ | ⟨-, rfl⟩ <;> exact hd
  refine ⟨?_, ?_, ?_, ?_, ?_, ?_, ?_, ?_, ?_, ?_, hdat⟩
  · rw [hpc, hnc]; exact upd_fresh h (by rw [hp]; nofun)
  · rw [hpc]; exact upd_all (fun d _ => h.shp d) hs'
  · intro a b; rw [hpc, eqE, eqE]; exact h.eu a b
  · intro r; rw [hrE] at r; cases r
  · intro _; rw [hpc]; exact ⟨nb, Or.inl ⟨c, (eqE c).trans hc⟩⟩
  · intro a b; rw [hpc, eqN, eqN]; exact h.nu a b
  · intro r d; rw [hpc, eqN, eqbN]; exact h.n0 (hrN ▸ r) d
  · intro r
    obtain ⟨r1, r2⟩ := h.n1 (hrN ▸ r)
    rw [hpc]
    refine ⟨fun d e => r1 d (eqbN d ▸ e), ?_⟩
    rcases r2 with ⟨d, e⟩ | r2
    · exact Or.inl ⟨d, (eqN d).trans e⟩
    · exact nr r2
  · intro d e; rw [hpc, eqP] at e; exact nr (h.past d e)
  · intro e he hb; exact nr (h.seen e (hev e he hb) hb)

/-- monitor_early_init finishes. -/
theorem inv_endEarly {s s' : S} (h : Inv s) {c : Call} {k : List Ret} (hp : s.pc c = some (.e2, k))
    (hrun : s'.run = s.run) (hmag : s'.magic = true) (hpc : s'.pc = upd s.pc c (retP k))
    (hnc : s'.nextC = s.nextC) (hdat : s'.data = lastData s'.tr) : Inv s' := by
  have hc : inE (s.pc c) = true := by rw [hp]; rfl
  have hr := run_of_in h hc (by rw [hp]; exact id)
  have hs := h.shp c
  rw [hp] at hs
  have key : shape (retP k) = true ∧ inE (retP k) = false ∧ inN (retP k) = inN (some (.e2, k)) ∧
      betw .normal (retP k) = betw .normal (some (.e2, k)) := by
    simp only [shape, List.contains_cons, List.contains_nil, Bool.or_false, Bool.or_eq_true, beq_iff_eq] at hs
    rcases hs with rfl | rfl | rfl | rfl | rfl <;> exact ⟨by decide, by decide, by decide, rfl⟩
  obtain ⟨k1, k2, k3, k4⟩ := key
  have eqN := upd_same (f := s.pc) inN (c := c) (q := retP k) (by rw [hp]; exact k3)
  have eqbN := upd_same (f := s.pc) (betw .normal) (c := c) (q := retP k) (by rw [hp]; exact k4)
  have out : ∀ d, inE (upd s.pc c (retP k) d) = false := upd_all (fun d hd => by
    cases e : inE (s.pc d) with
    | false => rfl
    | true => exact absurd (h.eu d c e hc) hd) k2
  have rdy : Ready s' := ⟨by rw [hrun]; exact hr, hmag, by rw [hpc]; exact out⟩
  refine ⟨?_, ?_, ?_, ?_, ?_, ?_, ?_, ?_, ?_, ?_, hdat⟩
  · rw [hpc, hnc]; exact upd_fresh h (by rw [hp]; nofun)
  · rw [hpc]; exact upd_all (fun d _ => h.shp d) k1
  · intro a b ha; rw [rdy.out] at ha; cases ha
  · intro r; rw [rdy.run] at r; cases r
  · intro _
    refine ⟨fun d e => ?_, Or.inr rdy⟩
    have := betw_inE e; rw [rdy.out] at this; cases this
  · intro a b; rw [hpc, eqN, eqN]; exact h.nu a b
  · intro r d; rw [hpc, eqN, eqbN]; exact h.n0 (hrun ▸ r) d
  · intro r
    rw [hpc]
    exact ⟨fun d e => (h.n1 (hrun ▸ r)).1 d (eqbN d ▸ e), Or.inr rdy⟩
  · intro d _; exact rdy
  · intro e _ _; exact rdy

/-- A step that leaves monitor_early_init alone. -/
theorem inv_normal {s s' : S} (h : Inv s) {c : Call} {q : P} (hsome : s.pc c ≠ none)
    (hE : inE q = inE (s.pc c)) (hbE : betw .early q = betw .early (s.pc c)) (hsh : shape q = true)
    (hP : passed q = true → Ready s)
    (hrun : s'.run .early = s.run .early) (hmag : s'.magic = s.magic) (hpc : s'.pc = upd s.pc c q)
    (hnc : s'.nextC = s.nextC) (hev : ∀ e ∈ s'.tr, Behind e → e ∈ s.tr ∨ Ready s)
    (hdat : s'.data = lastData s'.tr)
    (nu : ∀ a b, inN (s'.pc a) = true → inN (s'.pc b) = true → a = b)
    (n0 : s'.run .normal = false → ∀ d, inN (s'.pc d) = true → betw .normal (s'.pc d))
    (n1 : s'.run .normal = true → (∀ d, ¬ betw .normal (s'.pc d)) ∧ ((∃ d, inN (s'.pc d) = true) ∨ Ready s)) :
    Inv s' := by
  have eqE := upd_same (f := s.pc) inE (c := c) (q := q) hE
  have eqbE := upd_same (f := s.pc) (betw .early) (c := c) (q := q) hbE
  have rdy : Ready s → Ready s' := fun r =>
    ⟨hrun ▸ r.run, hmag ▸ r.magic, fun d => by rw [hpc, eqE]; exact r.out d⟩
  refine ⟨?_, ?_, ?_, ?_, ?_, nu, n0, fun r => ⟨(n1 r).1, (n1 r).2.imp id rdy⟩, ?_, ?_, hdat⟩
  · rw [hpc, hnc]; exact upd_fresh h hsome
  · rw [hpc]; exact upd_all (fun d _ => h.shp d) hsh
  · intro a b; rw [hpc, eqE, eqE]; exact h.eu a b
  · intro r d; rw [hpc, eqE, eqbE]; exact h.e0 (hrun ▸ r) d
  · intro r
    obtain ⟨r1, r2⟩ := h.e1 (hrun ▸ r)
    refine ⟨fun d e => r1 d (by rw [hpc, eqbE] at e; exact e), r2.imp (fun ⟨d, e⟩ => ⟨d, ?_⟩) rdy⟩
    rw [hpc, eqE]; exact e
  · intro d e
    rw [hpc] at e
    by_cases k : d = c
    · rw [k, upd_self] at e; exact rdy (hP e)
    · rw [upd_ne k] at e; exact rdy (h.past d e)
  · intro e he hb
    exact (hev e he hb).elim (fun k => rdy (h.seen e k hb)) rdy

theorem inv_cstep {s : S} (h : Inv s) {t : Tid} {c : Call} {rest : List Slot} {v : Data} {p : Step}
    {k : List Ret} (hp : s.pc c = some (p, k))
    (hE : p = .test .early → ∀ d, inE (s.pc d) = false) (hN : p = .test .normal → ∀ d, inN (s.pc d) = false) :
    Inv (cstep s t c rest v k p) := by
  have hsome : s.pc c ≠ none := by rw [hp]; nofun
  have hs := h.shp c
  rw [hp] at hs
  have hpast := h.past c
  rw [hp] at hpast
  have nil : p = .p1 ∨ p = .p2 ∨ p = .p3 ∨ p = .p4 ∨ p = .p5 → k = [] := by
    rintro (rfl | rfl | rfl | rfl | rfl) <;> simpa [shape] using hs
  cases p with
  | test x =>
    simp only [cstep]
    split
    · rename_i hr
      have rdy : x ≠ .lib → Ready s := by
        intro hx
        cases x with
        | lib => exact absurd rfl hx
        | early =>
          rcases (h.e1 hr).2 with ⟨d, e⟩ | r
          · rw [hE rfl] at e; cases e
          · exact r
        | normal =>
          rcases (h.n1 hr).2 with ⟨d, e⟩ | r
          · rw [hN rfl] at e; cases e
          · exact r
      refine inv_ret h hp (by simp) (by simp) (by simp) (by simp) (by simp) (fun e => rdy fun h => e (by rw [h]))
        (fun e he hb => ?_) (by simpa [lastData] using h.dat)
      rw [ret_tr, log_tr] at he
      rcases List.mem_cons.1 he with rfl | he
      · exact Or.inr (rdy hb)
      · exact Or.inl he
    · rename_i hr
      have hr : s.run x = false := by simpa using hr
      cases x with
      | early => exact inv_testEarly h hp hr (hE rfl)
      | normal =>
        have hn := hN rfl
        have only : ∀ d, inN (upd s.pc c (some (.set .normal, k)) d) = true → d = c := by
          intro d hd
          by_cases e : d = c
          · exact e
          · rw [upd_ne e, hn] at hd; cases hd
        refine inv_normal h (q := some (.set .normal, k)) hsome (by rw [hp]; rfl) (by rw [hp]; simp [betw]) hs
          hpast rfl rfl rfl rfl (fun e he _ => Or.inl he) h.dat ?_ ?_ ?_
        · intro a b ha hb; rw [only a ha, only b hb]
        · intro _ d hd; rw [goto_pc, only d hd, upd_self]; rfl
        · intro r; rw [goto_run, hr] at r; cases r
      | lib =>
        exact inv_plain h (fun _ _ => rfl) rfl rfl rfl hsome hs (by rw [hp]; rfl) (by rw [hp]; rfl)
          (by rw [hp]; simp [betw]) (by rw [hp]; simp [betw]) hpast (fun e he _ => Or.inl he) h.dat
  | set x =>
    have ev : ∀ e ∈ Ev.ran x c :: s.tr, Behind e → e ∈ s.tr := by
      intro e he hb
      rcases List.mem_cons.1 he with rfl | he
      · exact hb.elim
      · exact he
    cases x with
    | early =>
      exact inv_inEarly h hp (Or.inl ⟨rfl, rfl⟩) (by simp [cstep]) (by simp [cstep]) rfl rfl ev h.dat
    | normal =>
      have hc : inN (s.pc c) = true := by rw [hp]; rfl
      have hb : betw .normal (s.pc c) := by rw [hp]; rfl
      have eqN := upd_same (f := s.pc) inN (c := c) (q := some (.test .early, .n2 :: k))
        (by rw [hc]; simp [inN])
      have hsh : shape (some (.test .early, .n2 :: k)) = true := by
        simp only [shape, List.contains_cons, List.contains_nil, Bool.or_false, Bool.or_eq_true, beq_iff_eq] at hs
        rcases hs with rfl | rfl | rfl | rfl <;> decide
      refine inv_normal h (q := some (.test .early, .n2 :: k)) hsome (by rw [hp]; rfl) (by rw [hp]; simp [betw]) hsh
          ?_ (by simp [cstep]) rfl rfl rfl (fun e he hb => Or.inl (ev e he hb)) h.dat ?_ ?_ ?_
      · intro e
        exact hpast (by simpa [passed] using e)
      · intro a b
        simp only [cstep, goto_pc, log_pc, body]
        rw [eqN, eqN]; exact h.nu a b
      · intro r; simp [cstep] at r
      · intro _
        simp only [cstep, goto_pc, log_pc, body]
        refine ⟨fun d e => ?_, Or.inl ⟨c, (eqN c).trans hc⟩⟩
        have := h.nu d c ((eqN d).symm.trans (betw_inN e)) hc
        rw [this, upd_self] at e
        exact e
    | lib =>
      have key : shape (some (.test .normal, .l2 :: k)) = true ∧
          inN (some (.test .normal, .l2 :: k)) = inN (some (.set .lib, k)) := by
        simp only [shape, List.contains_cons, List.contains_nil, Bool.or_false, Bool.or_eq_true, beq_iff_eq] at hs
        rcases hs with rfl | rfl <;> decide
      exact inv_plain h (fun y hy => by simp [cstep, hy]) rfl rfl rfl hsome key.1 (by rw [hp]; rfl)
        (by rw [hp]; exact key.2) (by rw [hp]; simp [betw, body]) (by rw [hp]; simp [betw, body])
        (fun e => hpast (by simpa [passed, body] using e)) (fun e he hb => Or.inl (ev e he hb)) h.dat
  | e1 =>
    have hc : inE (s.pc c) = true := by rw [hp]; rfl
    have hr := run_of_in h hc (by rw [hp]; exact id)
    refine inv_inEarly h hp (Or.inr ⟨rfl, rfl⟩) hr rfl rfl rfl
      (fun e he _ => he) ?_
    refine (lastData_zero fun a d hd => ?_).symm
    have := (h.seen _ hd trivial).out c
    rw [hc] at this; cases this
  | e2 =>
    exact inv_endEarly h hp (by simp [cstep]) (by simp [cstep]) (by simp [cstep]) (by simp [cstep])
      (by simpa [cstep, lastData] using h.dat)
  | n2 =>
    have rdy := hpast rfl
    have hc : inN (s.pc c) = true := by rw [hp]; rfl
    have key : shape (retP k) = true ∧ inE (retP k) = false ∧ inN (retP k) = false ∧
        betw .early (retP k) = False := by
      simp only [shape, List.contains_cons, List.contains_nil, Bool.or_false, Bool.or_eq_true, beq_iff_eq] at hs
      rcases hs with rfl | rfl | rfl | rfl <;> exact ⟨by decide, by decide, by decide, rfl⟩
    obtain ⟨k1, k2, k3, k4⟩ := key
    have none : ∀ d, inN (upd s.pc c (retP k) d) = false := upd_all (fun d hd => by
      cases e : inN (s.pc d) with
      | false => rfl
      | true => exact absurd (h.nu d c e hc) hd) k3
    refine inv_normal h (q := retP k) hsome (by rw [hp, k2]; rfl) (by rw [hp, k4]; rfl) k1 (fun _ => rdy)
      (by simp [cstep]) (by simp [cstep]) (by simp [cstep]) (by simp [cstep]) (fun _ _ _ => Or.inr rdy)
      (by simpa [cstep, lastData] using h.dat) ?_ ?_ ?_
    · intro a b ha; simp only [cstep, ret_pc, log_pc, none] at ha; cases ha
    · intro _ d hd; simp only [cstep, ret_pc, log_pc, none] at hd; cases hd
    · intro _
      refine ⟨fun d e => ?_, Or.inr rdy⟩
      have := betw_inN e; simp only [cstep, ret_pc, log_pc, none] at this; cases this
  | l2 =>
    have rdy := hpast rfl
    exact inv_plain h (fun _ _ => rfl) rfl rfl rfl hsome hs (by rw [hp]; rfl) (by rw [hp]; rfl)
      (by rw [hp]; simp [betw]) (by rw [hp]; simp [betw]) (fun _ => rdy) (fun _ _ _ => Or.inr rdy) h.dat
  | l3 =>
    have rdy := hpast rfl
    exact inv_ret h hp (by simp [cstep]) (by simp [cstep]) (by simp [cstep]) (by simp [cstep]) (by simp)
      (fun _ => rdy) (fun _ _ _ => Or.inr rdy) (by simpa [cstep, lastData] using h.dat)
  | p1 =>
    have rdy := hpast rfl
    have hk := nil (by simp)
    subst hk
    simp only [cstep]
    split
    · exact inv_plain h (fun _ _ => rfl) rfl rfl rfl hsome hs (by rw [hp]; rfl) (by rw [hp]; rfl)
        (by rw [hp]; simp [betw]) (by rw [hp]; simp [betw]) (fun _ => rdy) (fun _ _ _ => Or.inr rdy) h.dat
    · split
      · exact inv_ret h hp (by simp) (by simp) (by simp) (by simp) (by simp)
          (fun _ => rdy) (fun _ _ _ => Or.inr rdy) (by simpa using h.dat)
      · exact inv_plain h (fun _ _ => rfl) rfl rfl rfl hsome hs (by rw [hp]; rfl) (by rw [hp]; rfl)
          (by rw [hp]; simp [betw]) (by rw [hp]; simp [betw]) (fun _ => rdy) (fun _ _ _ => Or.inr rdy) h.dat
  | p2 =>
    have rdy := hpast rfl
    exact inv_plain h (fun _ _ => rfl) rfl rfl rfl hsome hs (by rw [hp]; rfl) (by rw [hp]; rfl)
      (by rw [hp]; simp [betw]) (by rw [hp]; simp [betw]) (fun _ => rdy) (fun _ _ _ => Or.inr rdy) rfl
  | p3 =>
    have rdy := hpast rfl
    have hk := nil (by simp)
    subst hk
    exact inv_plain h (fun _ _ => rfl) rfl rfl rfl hsome (by decide) (by rw [hp]; rfl) (by rw [hp]; rfl)
      (by rw [hp]; simp [betw]) (by rw [hp]; simp [betw]) (fun _ => rdy) (fun _ _ _ => Or.inr rdy) h.dat
  | p4 =>
    have rdy := hpast rfl
    exact inv_plain h (fun _ _ => rfl) rfl rfl rfl hsome hs (by rw [hp]; rfl) (by rw [hp]; rfl)
      (by rw [hp]; simp [betw]) (by rw [hp]; simp [betw]) (fun _ => rdy) (fun _ _ _ => Or.inr rdy) h.dat
  | p5 =>
    have rdy := hpast rfl
    exact inv_ret h hp (by simp [cstep]) (by simp [cstep]) (by simp [cstep]) (by simp [cstep]) (by simp)
      (fun _ => rdy) (fun _ _ _ => Or.inr rdy) (by simp [cstep, lastData])

theorem inv_enter {s : S} (h : Inv s) {t : Tid} {p : Step × List Ret} {f : Bool} {d : Data}
    (hp : p ∈ [(.test .lib, []), (.test .early, []), (.test .normal, []), (.test .normal, [.p1])]) :
    Inv (s.enter t p f d) := by
  have hn := h.fresh s.nextC (Nat.le_refl _)
  have key : shape (some p) = true ∧ inE (some p) = false ∧ inN (some p) = false ∧ passed (some p) = false ∧
      betw .early (some p) = False ∧ betw .normal (some p) = False := by
    simp only [List.mem_cons, List.not_mem_nil, or_false] at hp
    rcases hp with rfl | rfl | rfl | rfl <;> exact ⟨by decide, by decide, by decide, by decide, rfl, rfl⟩
  obtain ⟨k1, k2, k3, k4, k5, k6⟩ := key
  have eqE := upd_same (f := s.pc) inE (c := s.nextC) (q := some p) (by rw [hn, k2]; rfl)
  have eqN := upd_same (f := s.pc) inN (c := s.nextC) (q := some p) (by rw [hn, k3]; rfl)
  have eqP := upd_same (f := s.pc) passed (c := s.nextC) (q := some p) (by rw [hn, k4]; rfl)
  have eqbE := upd_same (f := s.pc) (betw .early) (c := s.nextC) (q := some p) (by rw [hn, k5]; rfl)
  have eqbN := upd_same (f := s.pc) (betw .normal) (c := s.nextC) (q := some p) (by rw [hn, k6]; rfl)
  have hpc : (s.enter t p f d).pc = upd s.pc s.nextC (some p) := rfl
  have rdy : Ready s → Ready (s.enter t p f d) := fun r =>
    ⟨r.run, r.magic, fun d => by rw [hpc, eqE]; exact r.out d⟩
  refine ⟨?_, ?_, ?_, ?_, ?_, ?_, ?_, ?_, ?_, ?_, h.dat⟩
  · intro c hc
    have hc : s.nextC + 1 ≤ c := hc
    rw [hpc, upd_ne (Nat.ne_of_gt hc)]
    exact h.fresh c (Nat.le_of_succ_le hc)
  · rw [hpc]; exact upd_all (fun d _ => h.shp d) k1
  · intro a b; rw [hpc, eqE, eqE]; exact h.eu a b
  · intro r d; rw [hpc, eqE, eqbE]; exact h.e0 r d
  · intro r
    obtain ⟨r1, r2⟩ := h.e1 r
    refine ⟨fun d e => r1 d (by rw [hpc, eqbE] at e; exact e), r2.imp (fun ⟨d, e⟩ => ⟨d, ?_⟩) rdy⟩
    rw [hpc, eqE]; exact e
  · intro a b; rw [hpc, eqN, eqN]; exact h.nu a b
  · intro r d; rw [hpc, eqN, eqbN]; exact h.n0 r d
  · intro r
    obtain ⟨r1, r2⟩ := h.n1 r
    refine ⟨fun d e => r1 d (by rw [hpc, eqbN] at e; exact e), r2.imp (fun ⟨d, e⟩ => ⟨d, ?_⟩) rdy⟩
    rw [hpc, eqN]; exact e
  · intro d e; rw [hpc, eqP] at e; exact rdy (h.past d e)
  · intro e he hb; exact rdy (h.seen e he hb)

/-- Calls that are in the middle of nothing go away. -/
theorem inv_drop {s s' : S} (h : Inv s) (hrun : s'.run = s.run) (hmag : s'.magic = s.magic)
    (hpc : ∀ d, s'.pc d = s.pc d ∨ s'.pc d = none ∧ inE (s.pc d) = false ∧ inN (s.pc d) = false)
    (hnc : s'.nextC = s.nextC) (hev : ∀ e ∈ s'.tr, Behind e → e ∈ s.tr) (hdat : s'.data = lastData s'.tr) :
    Inv s' := by
  have eqE : ∀ d, inE (s'.pc d) = inE (s.pc d) := fun d => by
    rcases hpc d with e | ⟨e, e1, e2⟩
    · rw [e]
    · rw [e, e1]; rfl
  have eqN : ∀ d, inN (s'.pc d) = inN (s.pc d) := fun d => by
    rcases hpc d with e | ⟨e, e1, e2⟩
    · rw [e]
    · rw [e, e2]; rfl
  have eqbE : ∀ d, betw .early (s'.pc d) ↔ betw .early (s.pc d) := fun d => by
    rcases hpc d with e | ⟨e, e1, e2⟩
    · rw [e]
    · exact ⟨fun k => by rw [e] at k; exact k.elim, fun k => by rw [betw_inE k] at e1; cases e1⟩
  have eqbN : ∀ d, betw .normal (s'.pc d) ↔ betw .normal (s.pc d) := fun d => by
    rcases hpc d with e | ⟨e, e1, e2⟩
    · rw [e]
    · exact ⟨fun k => by rw [e] at k; exact k.elim, fun k => by rw [betw_inN k] at e2; cases e2⟩
  have rdy : Ready s → Ready s' := fun r => ⟨hrun ▸ r.run, hmag ▸ r.magic, fun d => (eqE d).trans (r.out d)⟩
  refine ⟨?_, ?_, ?_, ?_, ?_, ?_, ?_, ?_, ?_, ?_, hdat⟩
  · intro c hc
    have := h.fresh c (hnc ▸ hc)
    rcases hpc c with e | ⟨e, -⟩
    · rw [e, this]
    · exact e
  · intro c
    rcases hpc c with e | ⟨e, -⟩
    · rw [e]; exact h.shp c
    · rw [e]; rfl
  · intro a b; rw [eqE, eqE]; exact h.eu a b
  · intro r d; rw [eqE, eqbE]; exact h.e0 (hrun ▸ r) d
  · intro r
    obtain ⟨r1, r2⟩ := h.e1 (hrun ▸ r)
    exact ⟨fun d e => r1 d ((eqbE d).1 e), r2.imp (fun ⟨d, e⟩ => ⟨d, (eqE d).trans e⟩) rdy⟩
  · intro a b; rw [eqN, eqN]; exact h.nu a b
  · intro r d; rw [eqN, eqbN]; exact h.n0 (hrun ▸ r) d
  · intro r
    obtain ⟨r1, r2⟩ := h.n1 (hrun ▸ r)
    exact ⟨fun d e => r1 d ((eqbN d).1 e), r2.imp (fun ⟨d, e⟩ => ⟨d, (eqN d).trans e⟩) rdy⟩
  · intro d e
    rcases hpc d with k | ⟨k, -⟩
    · rw [k] at e; exact rdy (h.past d e)
    · rw [k] at e; cases e
  · intro e he hb; exact rdy (h.seen e (hev e he hb) hb)

theorem not_inE {s : S} {d : Call} (h : ¬ Inside s d .early) : inE (s.pc d) = false := by
  cases e : inE (s.pc d) with
  | false => rfl
  | true => exact absurd (inE_iff.1 e) h

theorem not_inN {s : S} {d : Call} (h : ¬ Inside s d .normal) : inN (s.pc d) = false := by
  cases e : inN (s.pc d) with
  | false => rfl
  | true => exact absurd (inN_iff.1 e) h

theorem inv_init : Inv {} where
  fresh _ _ := rfl
  shp _ := rfl
  eu _ _ h := by cases h
  e0 _ _ h := by cases h
  e1 h := by cases h
  nu _ _ h := by cases h
  n0 _ _ h := by cases h
  n1 h := by cases h
  past _ h := by cases h
  seen _ h := by cases h
  dat := rfl

theorem inv_next {s s' : S} {l : Lbl} (ih : Inv s) (ha : Serial s l) (hn : next s l = some s') : Inv s' := by
  have hE := ha .early nofun
  have hN := ha .normal nofun
  cases l with
  | go t v =>
    simp only [next] at hn
    split at hn
    · rename_i c rest ht
      split at hn
      · rename_i p k hp
        cases hn
        refine inv_cstep ih hp (fun e d => ?_) fun e d => ?_
        · subst e; exact not_inE (hE.1 t v c d rfl ⟨rest, ht⟩ ⟨k, hp⟩)
        · subst e; exact not_inN (hN.1 t v c d rfl ⟨rest, ht⟩ ⟨k, hp⟩)
      · cases hn
    · cases hn
      exact inv_drop ih rfl rfl (fun _ => Or.inl rfl) rfl (fun _ h _ => h) ih.dat
    · cases hn
  | call t k =>
    simp only [next] at hn
    split at hn
    · cases hn; exact inv_enter ih (by cases k <;> decide)
    · cases hn
  | interrupt t =>
    simp only [next] at hn
    split at hn
    · cases hn
    · cases hn
      exact inv_drop ih rfl rfl (fun _ => Or.inl rfl) rfl (fun _ h _ => h) ih.dat
  | unwind t n =>
    simp only [next] at hn
    split at hn
    · rename_i rest ht
      cases hn
      refine inv_drop ih rfl rfl (fun d => ?_) rfl (fun _ h _ => h) ih.dat
      by_cases hd : some d ∈ (none :: rest).take n
      · exact Or.inr ⟨by simp only [hd, if_true], not_inE (hE.2.1 t n d rfl (ht ▸ hd)),
          not_inN (hN.2.1 t n d rfl (ht ▸ hd))⟩
      · exact Or.inl (by simp only [hd, if_false])
    · cases hn
  | fork t v =>
    simp only [next] at hn
    split at hn
    · rename_i rest ht
      cases hn
      refine inv_enter ?_ (by decide)
      refine inv_drop ih rfl rfl (fun d => ?_) rfl (fun e he hb => ?_) ih.dat
      · by_cases hd : some d ∈ rest
        · exact Or.inl (by simp only [hd, if_true])
        · have : some d ∉ s.th t := by rw [ht]; simpa using hd
          exact Or.inr ⟨by simp only [hd, if_false], not_inE (hE.2.2 t v d rfl this),
            not_inN (hN.2.2 t v d rfl this)⟩
      · rcases List.mem_cons.1 he with rfl | he
        · exact hb.elim
        · exact he
    · cases hn

theorem inv_reach {s : S} (hs : ReachA Serial s) : Inv s := by
  induction hs with
  | init => exact inv_init
  | next _ ha hn ih => exact inv_next ih ha hn

end Libmonitor.Once
