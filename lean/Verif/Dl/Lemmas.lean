import Verif.Dl.Spec

namespace Libmonitor.Dl

open Spec

theorem find_none {w : World} {s : Sym} : ∀ {l : List ObjId},
    w.find s l = none ↔ ∀ o ∈ l, (w.obj o).defs s = none
  | [] => by simp [World.find]
  | o :: os => by
    cases h : (w.obj o).defs s with
    | some a =>
      simp only [World.find, h]
      constructor
      · intro k; cases k
      · intro k; have := k o (by simp); rw [h] at this; cases this
    | none =>
      simp only [World.find, h]
      rw [find_none (l := os)]
      constructor
      · intro k x hx
        rcases List.mem_cons.1 hx with rfl | hx
        · exact h
        · exact k x hx
      · intro k x hx; exact k x (by simp [hx])

theorem find_some {w : World} {s : Sym} {d : Def} : ∀ {l : List ObjId}, w.find s l = some d ↔
    ∃ mid rest, l = mid ++ d.owner :: rest ∧ (∀ x ∈ mid, (w.obj x).defs s = none) ∧
      (w.obj d.owner).defs s = some d.addr
  | [] => by simp [World.find]
  | o :: os => by
    cases h : (w.obj o).defs s with
    | some a =>
      simp only [World.find, h, Option.some.injEq]
      constructor
      · rintro rfl
        exact ⟨[], os, rfl, by simp, h⟩
      · rintro ⟨mid, rest, e, hm, hd⟩
        cases mid with
        | nil =>
          simp only [List.nil_append, List.cons.injEq] at e
          have e1 := e.1
          rw [e1, hd] at h
          cases d
          simp_all
        | cons x mid =>
          simp only [List.cons_append, List.cons.injEq] at e
          have := hm x (by simp)
          rw [← e.1, h] at this; cases this
    | none =>
      simp only [World.find, h]
      rw [find_some (l := os)]
      constructor
      · rintro ⟨mid, rest, rfl, hm, hd⟩
        refine ⟨o :: mid, rest, rfl, ?_, hd⟩
        intro x hx
        rcases List.mem_cons.1 hx with rfl | hx
        · exact h
        · exact hm x hx
      · rintro ⟨mid, rest, e, hm, hd⟩
        cases mid with
        | nil =>
          simp only [List.nil_append, List.cons.injEq] at e
          rw [← e.1, h] at hd; cases hd
        | cons x mid =>
          simp only [List.cons_append, List.cons.injEq] at e
          exact ⟨mid, rest, e.2, fun y hy => hm y (by simp [hy]), hd⟩

theorem after_split {x : ObjId} : ∀ {l : List ObjId} {mid : List ObjId}, mid ≠ [] →
    (after x l = mid ↔ ∃ before, l = before ++ x :: mid ∧ x ∉ before)
  | [], mid, hne => by
    simp only [after]
    constructor
    · intro h; exact absurd h.symm hne
    · rintro ⟨b, h, _⟩; cases b <;> simp at h
  | o :: os, mid, hne => by
    by_cases k : o = x
    · subst k
      simp only [after, if_true]
      constructor
      · rintro rfl; exact ⟨[], rfl, by simp⟩
      · rintro ⟨b, h, hb⟩
        cases b with
        | nil => simpa using h
        | cons y b =>
          simp only [List.cons_append, List.cons.injEq] at h
          exact absurd (by simp [h.1]) hb
    · simp only [after, k, if_false]
      rw [after_split hne]
      constructor
      · rintro ⟨b, rfl, hb⟩
        exact ⟨o :: b, rfl, by simp [hb, Ne.symm k]⟩
      · rintro ⟨b, h, hb⟩
        cases b with
        | nil => simp only [List.nil_append, List.cons.injEq] at h; exact absurd h.1 k
        | cons y b =>
          simp only [List.cons_append, List.cons.injEq] at h
          refine ⟨b, h.2, fun q => hb (by simp [q])⟩

theorem rtldNext_some {w : World} {s : Sym} {d : Def} : w.rtldNext s = some d ↔ IsNext w s d := by
  rw [World.rtldNext, find_some]
  constructor
  · rintro ⟨mid, rest, e, hm, hd⟩
    obtain ⟨b, e2, hb⟩ := (after_split (by simp)).1 e
    exact ⟨b, mid, rest, by simp [e2], hb, hm, hd⟩
  · rintro ⟨b, mid, rest, e, hb, hm, hd⟩
    exact ⟨mid, rest, (after_split (by simp)).2 ⟨b, by simpa using e, hb⟩, hm, hd⟩

theorem rtldNext_none {w : World} {s : Sym} : w.rtldNext s = none ↔ NoNext w s := find_none

theorem offers_iff {w : World} {s : Sym} {o : ObjId} {d : Def} :
    Offers w s o d ↔ (w.obj o).opens = true ∧ w.dlsym o s = some d := by
  unfold Offers World.dlsym
  constructor
  · rintro ⟨h1, h2, h3⟩
    refine ⟨h1, ?_⟩
    rw [find_some.2 h3]; simp [h2]
  · rintro ⟨h1, h2⟩
    cases hf : w.find s (w.obj o).search with
    | none => simp [hf] at h2
    | some d' =>
      simp only [hf] at h2
      by_cases z : d'.addr = 0
      · simp [z] at h2
      · simp only [z, if_false, Option.some.injEq] at h2
        subst h2
        exact ⟨h1, z, find_some.1 hf⟩

/-- First later library, as a function. -/
def later (w : World) (s : Sym) : List ObjId → Option Def
  | [] => none
  | o :: os =>
    if (w.obj o).opens then
      match w.dlsym o s with
      | some d => some d
      | none => later w s os
    else later w s os

theorem later_none {w : World} {s : Sym} : ∀ {l : List ObjId},
    later w s l = none ↔ ∀ o ∈ l, ∀ d, ¬ Offers w s o d
  | [] => by simp [later]
  | o :: os => by
    cases ho : (w.obj o).opens with
    | false =>
      simp only [later, ho, Bool.false_eq_true, if_false]
      rw [later_none (l := os)]
      constructor
      · intro k x hx d
        rcases List.mem_cons.1 hx with rfl | hx
        · rw [offers_iff]; simp [ho]
        · exact k x hx d
      · intro k x hx; exact k x (by simp [hx])
    | true =>
      cases hd : w.dlsym o s with
      | some d =>
        simp only [later, ho, hd, if_true]
        constructor
        · intro k; cases k
        · intro k; exact absurd (offers_iff.2 ⟨ho, hd⟩) (k o (by simp) d)
      | none =>
        simp only [later, ho, hd, if_true]
        rw [later_none (l := os)]
        constructor
        · intro k x hx d
          rcases List.mem_cons.1 hx with rfl | hx
          · rw [offers_iff]; simp [hd]
          · exact k x hx d
        · intro k x hx; exact k x (by simp [hx])

theorem later_some {w : World} {s : Sym} {d : Def} : ∀ {l : List ObjId}, later w s l = some d ↔
    ∃ mid o rest, l = mid ++ o :: rest ∧ (∀ x ∈ mid, ∀ d', ¬ Offers w s x d') ∧ Offers w s o d
  | [] => by simp [later]
  | o :: os => by
    have skip : (∀ d', ¬ Offers w s o d') → (later w s os = some d ↔
        ∃ mid o' rest, o :: os = mid ++ o' :: rest ∧ (∀ x ∈ mid, ∀ d', ¬ Offers w s x d') ∧
          Offers w s o' d) := by
      intro hno
      rw [later_some (l := os)]
      constructor
      · rintro ⟨mid, o', rest, rfl, hm, hof⟩
        refine ⟨o :: mid, o', rest, rfl, ?_, hof⟩
        intro x hx
        rcases List.mem_cons.1 hx with rfl | hx
        · exact hno
        · exact hm x hx
      · rintro ⟨mid, o', rest, e, hm, hof⟩
        cases mid with
        | nil =>
          simp only [List.nil_append, List.cons.injEq] at e
          exact absurd hof (e.1 ▸ hno d)
        | cons y mid =>
          simp only [List.cons_append, List.cons.injEq] at e
          exact ⟨mid, o', rest, e.2, fun x hx => hm x (by simp [hx]), hof⟩
    cases ho : (w.obj o).opens with
    | false =>
      simp only [later, ho, Bool.false_eq_true, if_false]
      exact skip (fun d' => by rw [offers_iff]; simp [ho])
    | true =>
      cases hd : w.dlsym o s with
      | none =>
        simp only [later, ho, hd, if_true]
        exact skip (fun d' => by rw [offers_iff]; simp [hd])
      | some d0 =>
        simp only [later, ho, hd, if_true, Option.some.injEq]
        constructor
        · rintro rfl
          exact ⟨[], o, os, rfl, by simp, offers_iff.2 ⟨ho, hd⟩⟩
        · rintro ⟨mid, o', rest, e, hm, hof⟩
          cases mid with
          | nil =>
            simp only [List.nil_append, List.cons.injEq] at e
            have := (offers_iff.1 hof).2
            rw [← e.1, hd] at this
            simpa using this
          | cons y mid =>
            simp only [List.cons_append, List.cons.injEq] at e
            exact absurd (offers_iff.2 ⟨ho, hd⟩) (e.1 ▸ hm y (by simp) d0)

/-- The result of the fallback, as a lookup result. -/
def toRes : Option Def → Res
  | some d => .ok d
  | none => .error

/-- The scan after libmonitor has been passed. -/
theorem scan_false {w : World} {s : Sym} {dlInit : St → Option (St × Bool)} (P : St → Prop)
    (hinit : ∀ st, P st → ∃ st', dlInit st = some (st', true) ∧ P st')
    (hemit : ∀ st e, P st → P (st.emit e)) : ∀ (l : List ObjId) (st : St), P st →
    ∃ st', scan w s dlInit false l st = some (st', toRes (later w s l)) ∧ P st'
  | [], st, hp => ⟨st, rfl, hp⟩
  | o :: os, st, hp => by
    obtain ⟨st1, h1, hp1⟩ := hinit st hp
    cases ho : (w.obj o).opens with
    | false =>
      simp only [scan, h1, ho, Bool.false_eq_true, if_false, later]
      exact scan_false P hinit hemit os _ (hemit _ _ hp1)
    | true =>
      cases hd : w.dlsym o s with
      | some d =>
        simp only [scan, h1, ho, hd, if_true, later]
        exact ⟨_, rfl, hemit _ _ (hemit _ _ hp1)⟩
      | none =>
        simp only [scan, h1, ho, hd, if_true, later]
        exact scan_false P hinit hemit os _ (hemit _ _ (hemit _ _ hp1))

theorem scan_true {w : World} {s : Sym} {dlInit : St → Option (St × Bool)} :
    ∀ (l : List ObjId) (st : St), w.self ∈ l →
      scan w s dlInit true l st = scan w s dlInit false (after w.self l) st
  | [], _, h => by simp at h
  | o :: os, st, h => by
    by_cases k : o = w.self
    · simp [scan, after, k]
    · have : w.self ∈ os := by
        rcases List.mem_cons.1 h with h | h
        · exact absurd h.symm k
        · exact h
      simp only [scan, after, k, if_false]
      exact scan_true os st this

theorem scan_true_notin {w : World} {s : Sym} {dlInit : St → Option (St × Bool)} :
    ∀ (l : List ObjId) (st : St), w.self ∉ l → scan w s dlInit true l st = some (st, .error)
  | [], _, _ => rfl
  | o :: os, st, h => by
    have k : o ≠ w.self := fun k => h (by simp [k])
    simp only [scan, k, if_false]
    exact scan_true_notin os st (fun q => h (by simp [q]))

theorem after_notin {x : ObjId} : ∀ {l : List ObjId}, x ∉ l → after x l = []
  | [], _ => rfl
  | o :: os, h => by
    have k : o ≠ x := fun k => h (by simp [k])
    simp only [after, k, if_false]
    exact after_notin (fun q => h (by simp [q]))

end Libmonitor.Dl
