import Verif.Once.Spec

/-!
# Invariants for C83
-/

namespace Libmonitor.Once

abbrev P := Option (Step × List Ret)

/-- Where a function returns to. -/
def retP : List Ret → P
  | [] => none
  | .n2 :: k => some (.n2, k)
  | .l2 :: k => some (.l2, k)
  | .p1 :: k => some (.p1, k)
  | .p4 :: k => some (.p4, k)

def upd (f : Call → P) (c : Call) (q : P) : Call → P := fun d => if d = c then q else f d

theorem upd_self {f : Call → P} {c : Call} {q : P} : upd f c q c = q := by simp [upd]

theorem upd_ne {f : Call → P} {c d : Call} {q : P} (h : d ≠ c) : upd f c q d = f d := by simp [upd, h]

section
variable {s : S} {t : Tid} {c : Call} {rest : List Slot} {k : List Ret} {e : Ev} {p : P} {l : List Slot}
@[simp] theorem ret_pc : (s.ret t c rest k).pc = upd s.pc c (retP k) := by
  rcases k with - | ⟨- | - | - | -, k⟩ <;> rfl
@[simp] theorem ret_run : (s.ret t c rest k).run = s.run := by rcases k with - | ⟨- | - | - | -, k⟩ <;> rfl
@[simp] theorem ret_magic : (s.ret t c rest k).magic = s.magic := by rcases k with - | ⟨- | - | - | -, k⟩ <;> rfl
@[simp] theorem ret_data : (s.ret t c rest k).data = s.data := by rcases k with - | ⟨- | - | - | -, k⟩ <;> rfl
@[simp] theorem ret_tr : (s.ret t c rest k).tr = s.tr := by rcases k with - | ⟨- | - | - | -, k⟩ <;> rfl
@[simp] theorem ret_nextC : (s.ret t c rest k).nextC = s.nextC := by rcases k with - | ⟨- | - | - | -, k⟩ <;> rfl
@[simp] theorem log_pc : (s.log e).pc = s.pc := rfl
@[simp] theorem log_run : (s.log e).run = s.run := rfl
@[simp] theorem log_magic : (s.log e).magic = s.magic := rfl
@[simp] theorem log_data : (s.log e).data = s.data := rfl
@[simp] theorem log_tr : (s.log e).tr = e :: s.tr := rfl
@[simp] theorem log_nextC : (s.log e).nextC = s.nextC := rfl
@[simp] theorem log_th : (s.log e).th = s.th := rfl
@[simp] theorem goto_pc : (s.goto c p).pc = upd s.pc c p := rfl
@[simp] theorem goto_run : (s.goto c p).run = s.run := rfl
@[simp] theorem goto_magic : (s.goto c p).magic = s.magic := rfl
@[simp] theorem goto_data : (s.goto c p).data = s.data := rfl
@[simp] theorem goto_tr : (s.goto c p).tr = s.tr := rfl
@[simp] theorem goto_nextC : (s.goto c p).nextC = s.nextC := rfl
@[simp] theorem goto_th : (s.goto c p).th = s.th := rfl
@[simp] theorem setTh_pc : (s.setTh t l).pc = s.pc := rfl
@[simp] theorem setTh_run : (s.setTh t l).run = s.run := rfl
@[simp] theorem setTh_magic : (s.setTh t l).magic = s.magic := rfl
@[simp] theorem setTh_data : (s.setTh t l).data = s.data := rfl
@[simp] theorem setTh_tr : (s.setTh t l).tr = s.tr := rfl
@[simp] theorem setTh_nextC : (s.setTh t l).nextC = s.nextC := rfl
end

/-! ### Once -/

/-- The call is between testing and setting. -/
def betw (x : Guard) : P → Prop
  | some (.set y, _) => y = x
  | _ => False

theorem between_iff {s : S} {x : Guard} {c : Call} : Between s x c ↔ betw x (s.pc c) := by
  unfold Between
  constructor
  · rintro ⟨k, h⟩; rw [h]; rfl
  · intro h
    cases e : s.pc c with
    | none => rw [e] at h; exact h.elim
    | some a =>
      obtain ⟨p, k⟩ := a
      rw [e] at h
      cases p <;> first | exact h.elim | (cases h; exact ⟨k, rfl⟩)

theorem retP_betw {x : Guard} {k : List Ret} : ¬ betw x (retP k) := by
  rcases k with - | ⟨- | - | - | -, k⟩ <;> exact id

structure OnceI (x : Guard) (s : S) : Prop where
  clear : s.run x = false → runs x s.tr = 0
  set : s.run x = true → runs x s.tr = 1 ∧ ∀ d, ¬ betw x (s.pc d)
  uniq : ∀ c d, betw x (s.pc c) → betw x (s.pc d) → c = d

theorem onceI_same {x : Guard} {s s' : S} (h : OnceI x s) (h1 : s'.run x = s.run x)
    (h2 : runs x s'.tr = runs x s.tr) (h3 : ∀ d, betw x (s'.pc d) → betw x (s.pc d)) : OnceI x s' where
  clear k := by rw [h2]; exact h.clear (h1 ▸ k)
  set k := by rw [h2]; exact ⟨(h.set (h1 ▸ k)).1, fun d e => (h.set (h1 ▸ k)).2 d (h3 d e)⟩
  uniq c d hc hd := h.uniq c d (h3 c hc) (h3 d hd)

theorem once_cstep {x : Guard} {s : S} (h : OnceI x s) {t : Tid} {c : Call} {rest : List Slot} {v : Data}
    {p : Step} {k : List Ret} (hp : s.pc c = some (p, k))
    (hr : p = .test x → ∀ d, ¬ betw x (s.pc d)) : OnceI x (cstep s t c rest v k p) := by
  have quiet : ∀ {s' : S} {q : P}, s'.run = s.run → runs x s'.tr = runs x s.tr → s'.pc = upd s.pc c q →
      ¬ betw x q → OnceI x s' := by
    intro s' q h1 h2 h3 h4
    refine onceI_same h (by rw [h1]) h2 fun d hd => ?_
    rw [h3] at hd
    by_cases e : d = c
    · rw [e, upd_self] at hd; exact absurd hd h4
    · rwa [upd_ne e] at hd
  cases p with
  | test y =>
    simp only [cstep]
    split
    · exact quiet (q := retP k) (by simp) (by simp [runs]) (by simp) retP_betw
    · rename_i hy
      by_cases e : y = x
      · subst e
        have hn := hr rfl
        have hy : s.run y = false := by simpa using hy
        refine ⟨h.clear, fun k => ?_, fun a b ha hb => ?_⟩
        · rw [goto_run, hy] at k; cases k
        · have only : ∀ a, betw y ((s.goto c (some (.set y, k))).pc a) → a = c := by
            intro a ha
            by_cases e : a = c
            · exact e
            · rw [goto_pc, upd_ne e] at ha; exact absurd ha (hn a)
          rw [only a ha, only b hb]
      · exact quiet (q := some (.set y, k)) rfl rfl rfl e
  | set y =>
    by_cases e : y = x
    · subst e
      have hb : betw y (s.pc c) := by rw [hp]; rfl
      have hf : s.run y = false := by
        cases hy : s.run y with
        | false => rfl
        | true => exact absurd hb ((h.set hy).2 c)
      have hbody : ¬ betw y (some (body y k)) := by cases y <;> exact id
      have none : ∀ d, ¬ betw y ((cstep s t c rest v k (.set y)).pc d) := by
        intro d hd
        simp only [cstep, goto_pc, log_pc] at hd
        by_cases e : d = c
        · rw [e, upd_self] at hd; exact hbody hd
        · rw [upd_ne e] at hd; exact e (h.uniq d c hd hb)
      refine ⟨fun k => ?_, fun _ => ⟨?_, none⟩, fun a b ha => absurd ha (none a)⟩
      · simp [cstep] at k
      · have := h.clear hf
        simp only [runs] at this
        simp [cstep, runs, this]
    · refine onceI_same h ?_ ?_ fun d hd => ?_
      · simp [cstep, Ne.symm e]
      · simp [cstep, runs, e]
      · simp only [cstep, goto_pc, log_pc] at hd
        by_cases e : d = c
        · rw [e, upd_self] at hd
          cases y <;> exact absurd hd id
        · rwa [upd_ne e] at hd
  | e1 => exact quiet (q := some (.e2, k)) rfl rfl rfl id
  | e2 => exact quiet (q := retP k) (by simp [cstep]) (by simp [cstep, runs]) (by simp [cstep]) retP_betw
  | n2 => exact quiet (q := retP k) (by simp [cstep]) (by simp [cstep, runs]) (by simp [cstep]) retP_betw
  | l2 => exact quiet (q := some (.l3, k)) rfl (by simp [cstep, runs]) rfl id
  | l3 => exact quiet (q := retP k) (by simp [cstep]) (by simp [cstep, runs]) (by simp [cstep]) retP_betw
  | p1 =>
    simp only [cstep]
    split
    · exact quiet (q := some (.p2, k)) rfl rfl rfl id
    · split
      · exact quiet (q := retP k) (by simp) (by simp) (by simp) retP_betw
      · exact quiet (q := some (.p3, k)) rfl rfl rfl id
  | p2 => exact quiet (q := some (.p3, k)) rfl (by simp [cstep, runs]) rfl id
  | p3 => exact quiet (q := some (.test .lib, .p4 :: k)) rfl rfl rfl id
  | p4 => exact quiet (q := some (.p5, k)) rfl (by simp [cstep, runs]) rfl id
  | p5 => exact quiet (q := retP k) (by simp [cstep]) (by simp [cstep, runs]) (by simp [cstep]) retP_betw

theorem start_betw {x : Guard} {e : Entry} : ¬ betw x (some e.start) := by cases e <;> exact id

theorem once_enter {x : Guard} {s : S} (h : OnceI x s) {t : Tid} {p : Step × List Ret} {f : Bool} {d : Data}
    (hp : ¬ betw x (some p)) : OnceI x (s.enter t p f d) := by
  refine onceI_same h rfl rfl fun e he => ?_
  have : (s.enter t p f d).pc = upd s.pc s.nextC (some p) := rfl
  rw [this] at he
  by_cases k : e = s.nextC
  · rw [k, upd_self] at he; exact absurd he hp
  · rwa [upd_ne k] at he

theorem once_inv {x : Guard} {s : S} (hs : ReachA NoRace s) : OnceI x s := by
  induction hs with
  | init => exact ⟨fun _ => rfl, fun h => by simp at h, fun _ _ h => h.elim⟩
  | @next s s' l _ ha hn ih =>
    cases l with
    | go t v =>
      simp only [next] at hn
      split at hn
      · rename_i c rest ht
        split at hn
        · rename_i p k hp
          cases hn
          refine once_cstep ih hp fun e d => ?_
          subst e
          exact fun k' => ha t v c x d rfl ⟨rest, ht⟩ ⟨k, hp⟩ (between_iff.2 k')
        · cases hn
      · cases hn; exact onceI_same ih rfl rfl fun _ h => h
      · cases hn
    | call t k =>
      simp only [next] at hn
      split at hn
      · cases hn; exact once_enter ih start_betw
      · cases hn
    | interrupt t =>
      simp only [next] at hn
      split at hn
      · cases hn
      · cases hn; exact onceI_same ih rfl rfl fun _ h => h
    | unwind t n =>
      simp only [next] at hn
      split at hn
      · cases hn
        refine onceI_same ih rfl rfl fun d hd => ?_
        simp only at hd
        split at hd
        · exact hd.elim
        · exact hd
      · cases hn
    | fork t d =>
      simp only [next] at hn
      split at hn
      · cases hn
        refine once_enter ?_ (fun h => h)
        refine onceI_same ih rfl (by simp [runs]) fun d hd => ?_
        simp only at hd
        split at hd
        · exact hd
        · exact hd.elim
      · cases hn

end Libmonitor.Once
