import Verif.SigI.Spec
import Verif.Sig.Lemmas

/-!
# Invariants for C84
-/

namespace Libmonitor.SigI

open Sig (Cfg)

abbrev P := Option (Step × List Ret)

def retP : List Ret → P
  | [] => none
  | .s2 :: k => some (.c0, .s3 :: k)
  | .s3 :: k => some (.s3, k)
  | .i5 :: k => some (.i5, k)
  | .a1 g h :: k => some (.a1 g h, k)
  | .b1 g h :: k => some (.b1 g h, k)

def upd (f : Call → P) (c : Call) (q : P) : Call → P := fun d => if d = c then q else f d

theorem upd_self {f : Call → P} {c : Call} {q : P} : upd f c q c = q := by simp [upd]

theorem upd_ne {f : Call → P} {c d : Call} {q : P} (h : d ≠ c) : upd f c q d = f d := by simp [upd, h]

section
variable {s : S} {t : Tid} {c : Call} {rest : List Slot} {k : List Ret} {e : Ev} {p : P} {l : List Slot}
@[simp] theorem ret_pc : (s.ret t c rest k).pc = upd s.pc c (retP k) := by
  rcases k with - | ⟨- | - | - | - | -, k⟩ <;> rfl
@[simp] theorem ret_orig : (s.ret t c rest k).orig = s.orig := by rcases k with - | ⟨- | - | - | - | -, k⟩ <;> rfl
@[simp] theorem ret_env : (s.ret t c rest k).env = s.env := by rcases k with - | ⟨- | - | - | - | -, k⟩ <;> rfl
@[simp] theorem ret_run : (s.ret t c rest k).run = s.run := by rcases k with - | ⟨- | - | - | - | -, k⟩ <;> rfl
@[simp] theorem ret_sd : (s.ret t c rest k).sd = s.sd := by rcases k with - | ⟨- | - | - | - | -, k⟩ <;> rfl
@[simp] theorem ret_table : (s.ret t c rest k).table = s.table := by
  rcases k with - | ⟨- | - | - | - | -, k⟩ <;> rfl
@[simp] theorem ret_keep : (s.ret t c rest k).keep = s.keep := by rcases k with - | ⟨- | - | - | - | -, k⟩ <;> rfl
@[simp] theorem ret_client : (s.ret t c rest k).client = s.client := by
  rcases k with - | ⟨- | - | - | - | -, k⟩ <;> rfl
@[simp] theorem ret_app : (s.ret t c rest k).app = s.app := by rcases k with - | ⟨- | - | - | - | -, k⟩ <;> rfl
@[simp] theorem ret_kern : (s.ret t c rest k).kern = s.kern := by rcases k with - | ⟨- | - | - | - | -, k⟩ <;> rfl
@[simp] theorem ret_kernel : (s.ret t c rest k).kernel = s.kernel := by
  rcases k with - | ⟨- | - | - | - | -, k⟩ <;> rfl
@[simp] theorem ret_tr : (s.ret t c rest k).tr = s.tr := by rcases k with - | ⟨- | - | - | - | -, k⟩ <;> rfl
@[simp] theorem goto_pc : (s.goto c p).pc = upd s.pc c p := rfl
@[simp] theorem log_pc : (s.log e).pc = s.pc := rfl
@[simp] theorem log_tr : (s.log e).tr = e :: s.tr := rfl
@[simp] theorem enter_pc {q : Step × List Ret} : (s.enter t q).pc = upd s.pc s.nextC (some q) := rfl
end

/-! ### The numbers are valid -/

def ok (f : Cfg) (n : Nat) : Prop := 1 ≤ n ∧ n < f.nsig ∧ Sig.avoid n = false ∧ Sig.stop n = false

theorem ok_last {f : Cfg} (hn : 31 ≤ f.nsig) : ok f Sig.lastResort :=
  ⟨by decide, by have : Sig.lastResort = 28 := rfl; omega, rfl, rfl⟩

theorem ok_pick {f : Cfg} (hn : 31 ≤ f.nsig) {s : S} (ht : ∀ x ∈ s.table, ok f x) : ok f (cstep.pick f s) := by
  have hacc : ∀ {e : Int}, Sig.acceptable f e = true → ok f e.toNat := by
    intro e he
    rw [Sig.acceptable_iff] at he
    exact ⟨he.1, he.2.1, he.2.2.2⟩
  have hc : ok f (if Sig.acceptable f f.config then f.config.toNat
      else (s.table.find? (fun x => !s.keep x)).getD Sig.lastResort) := by
    split
    · exact hacc ‹_›
    · cases e : s.table.find? (fun x => !s.keep x) with
      | none => exact ok_last hn
      | some x => exact ht x (List.mem_of_find?_eq_some e)
  unfold cstep.pick
  simp only
  cases s.env with
  | none => exact hc
  | some e =>
    simp only
    split
    · exact hacc ‹_›
    · exact hc

theorem ok_table {f : Cfg} (hn : 31 ≤ f.nsig) {keep : Nat → Bool} {tbl : List Nat}
    (h : Sig.buildTable f keep = some tbl) : ∀ x ∈ tbl, ok f x := by
  obtain ⟨t, h1, h2⟩ := Sig.buildTable_spec f keep hn
  rw [h] at h1
  cases h1
  intro x hx
  rcases List.mem_append.1 hx with hx | hx
  · have := (h2 x).1 hx
    exact ⟨(Sig.cand_pos f hn this).1, (Sig.cand_pos f hn this).2, this.2.1, this.2.2.1⟩
  · cases List.mem_singleton.1 hx
    exact ok_last hn

/-- What can be still to do behind monitor_signal_init. -/
def initK : List Ret → Bool
  | [] | [.s2] | [.a1 _ _] | [.b1 _ _] => true
  | _ => false

/-- What can be still to do, for each function. -/
def shape : P → Bool
  | some (.test, k) | some (.set, k) | some (.clear, k) | some (.mark, k) | some (.i5, k) | some (.inst _, k) =>
    initK k
  | some (.c0, k) | some (.c1, k) | some (.c2, k) | some (.c3 _, k) =>
    match k with
    | [.s3] => true
    | .i5 :: k => initK k
    | _ => false
  | some (_, k) => k == []
  | none => true

theorem initK_cases {k : List Ret} (h : initK k = true) :
    k = [] ∨ k = [.s2] ∨ (∃ g x, k = [.a1 g x]) ∨ ∃ g x, k = [.b1 g x] := by
  match k, h with
  | [], _ => exact .inl rfl
  | [.s2], _ => exact .inr (.inl rfl)
  | [.a1 g x], _ => exact .inr (.inr (.inl ⟨g, x, rfl⟩))
  | [.b1 g x], _ => exact .inr (.inr (.inr ⟨g, x, rfl⟩))

theorem chooseK_cases {k : List Ret}
    (h : (match k with | [.s3] => true | .i5 :: k => initK k | _ => false) = true) :
    k = [.s3] ∨ ∃ k', k = .i5 :: k' ∧ initK k' = true := by
  match k, h with
  | [.s3], _ => exact .inl rfl
  | .i5 :: k, h => exact .inr ⟨k, rfl, by simpa using h⟩

theorem initK_ret {k : List Ret} (h : initK k = true) : shape (retP k) = true := by
  rcases initK_cases h with rfl | rfl | ⟨g, x, rfl⟩ | ⟨g, x, rfl⟩ <;> rfl

/-- The kinds of changes that a step makes. -/
inductive Kind (f : Cfg) (s : S) (c : Call) : Step → List Ret → P → Prop where
  | skip {k} : s.run = true → Kind f s c .test k (retP k)
  | test {k} : s.run = false → Kind f s c .test k (some (.set, k))
  | set {k} : Kind f s c .set k (some (.clear, k))
  | clear {k} : Kind f s c .clear k (some (.mark, k))
  | mark {k} : Kind f s c .mark k (some (.c0, .i5 :: k))
  | c0s {k n} : s.sd = some n → Kind f s c .c0 k (retP k)
  | c0 {k} : s.sd = none → Kind f s c .c0 k (some (.c1, k))
  | c1 {k} : Kind f s c .c1 k (some (.c2, k))
  | c2 {k} : Kind f s c .c2 k (some (.c3 (cstep.pick f s), k))
  | c3 {v k} : Kind f s c (.c3 v) k (retP k)
  | i5 {k} : Kind f s c .i5 k (some (.inst 1, k))
  | inst {g k} : g < f.nsig → Kind f s c (.inst g) k (some (.inst (g + 1), k))
  | fin {g k} : ¬ g < f.nsig → Kind f s c (.inst g) k (retP k)
  | s0s {k n} : s.sd = some n → Kind f s c .s0 k (retP k)
  | s0 {k} : s.sd = none → Kind f s c .s0 k (some (.test, .s2 :: k))
  | s3 {k} : Kind f s c .s3 k (retP k)
  | a1 {g h k} : Kind f s c (.a1 g h) k (some (.a2 g h, k))
  | a1n {g h k} : Kind f s c (.a1 g h) k (retP k)
  | a2 {g h k} : Kind f s c (.a2 g h) k (retP k)
  | b1 {g h k} : Kind f s c (.b1 g h) k (retP k)
  | d1 {g k} : Kind f s c (.d1 g) k (retP k)
  | stuck {p k} : s.pc c = some (p, k) → (p = .c1 ∨ p = .i5) → Kind f s c p k (some (p, k))

theorem upd_id {f : Call → P} {c : Call} : f = upd f c (f c) := by
  funext d
  by_cases e : d = c
  · rw [e, upd_self]
  · rw [upd_ne e]

theorem cstep_kind {f : Cfg} {s : S} {t : Tid} {c : Call} {rest : List Slot} {p : Step} {k : List Ret}
    (hp : s.pc c = some (p, k)) :
    ∃ q, (cstep f s t c rest k p).pc = upd s.pc c q ∧ Kind f s c p k q := by
  have stuck : p = .c1 ∨ p = .i5 → ∃ q, s.pc = upd s.pc c q ∧ Kind f s c p k q := fun h =>
    ⟨some (p, k), by rw [← hp]; exact upd_id, .stuck hp h⟩
  cases p with
  | test =>
    simp only [cstep]
    split
    · exact ⟨_, ret_pc, .skip ‹_›⟩
    · exact ⟨_, rfl, .test (Bool.eq_false_iff.mpr ‹_›)⟩
  | set => exact ⟨_, rfl, .set⟩
  | clear => exact ⟨_, rfl, .clear⟩
  | mark => exact ⟨_, rfl, .mark⟩
  | c0 =>
    simp only [cstep]
    split
    · exact ⟨_, ret_pc, .c0s ‹_›⟩
    · exact ⟨_, rfl, .c0 ‹_›⟩
  | c1 =>
    simp only [cstep]
    split
    · exact ⟨_, rfl, .c1⟩
    · exact stuck (.inl rfl)
  | c2 => exact ⟨_, rfl, .c2⟩
  | c3 v => exact ⟨_, by simp only [cstep, ret_pc], .c3⟩
  | i5 =>
    simp only [cstep]
    split
    · exact ⟨_, rfl, .i5⟩
    · exact stuck (.inr rfl)
  | inst g =>
    simp only [cstep]
    split
    · split
      · exact ⟨_, rfl, .inst ‹_›⟩
      · exact ⟨_, rfl, .inst ‹_›⟩
    · exact ⟨_, by simp only [ret_pc, log_pc], .fin ‹_›⟩
  | s0 =>
    simp only [cstep]
    split
    · exact ⟨_, by simp only [ret_pc, log_pc], .s0s ‹_›⟩
    · exact ⟨_, rfl, .s0 ‹_›⟩
  | s3 => exact ⟨_, by simp only [cstep, ret_pc, log_pc], .s3⟩
  | a1 g h =>
    simp only [cstep]
    split
    · exact ⟨_, rfl, .a1⟩
    · exact ⟨_, ret_pc, .a1n⟩
  | a2 g h => exact ⟨_, by simp only [cstep, ret_pc, log_pc], .a2⟩
  | b1 g h =>
    simp only [cstep]
    split
    · exact ⟨_, by simp only [ret_pc, log_pc], .b1⟩
    · exact ⟨_, ret_pc, .b1⟩
  | d1 g => exact ⟨_, by simp only [cstep, ret_pc, log_pc], .d1⟩

theorem kind_shape {f : Cfg} {s : S} {c : Call} {p : Step} {k : List Ret} {q : P} (h : Kind f s c p k q)
    (hs : shape (some (p, k)) = true) : shape q = true := by
  have nil : ∀ {a : Prop}, (k == []) = true → (k = [] → a) → a := fun e h => h (by simpa using e)
  cases h with
  | skip _ => exact initK_ret hs
  | test _ => exact hs
  | set => exact hs
  | clear => exact hs
  | mark => exact hs
  | c0s _ =>
    rcases chooseK_cases hs with rfl | ⟨k', rfl, h⟩
    · rfl
    · exact h
  | c0 _ => exact hs
  | c1 => exact hs
  | c2 => exact hs
  | c3 =>
    rcases chooseK_cases hs with rfl | ⟨k', rfl, h⟩
    · rfl
    · exact h
  | i5 => exact hs
  | inst _ => exact hs
  | fin _ => exact initK_ret hs
  | s0s _ => exact nil hs fun e => by subst e; rfl
  | s0 _ => exact nil hs fun e => by subst e; rfl
  | s3 => exact nil hs fun e => by subst e; rfl
  | a1 => exact hs
  | a1n => exact nil hs fun e => by subst e; rfl
  | a2 => exact nil hs fun e => by subst e; rfl
  | b1 => exact nil hs fun e => by subst e; rfl
  | d1 => exact nil hs fun e => by subst e; rfl
  | stuck _ h => exact hs

theorem start_shape {e : Entry} : shape (some e.start) = true := by cases e <;> rfl

/-- Something that holds of every call in progress. -/
theorem pc_reach {f : Cfg} {A : S → Lbl → Prop} (g : P → Prop) (h0 : g none)
    (hstart : ∀ e : Entry, g (some e.start)) (hsig : ∀ x, g (some (.d1 x, [])))
    (hstep : ∀ (s : S) c p k q, Kind f s c p k q → g (some (p, k)) → g q) {s : S} (hs : ReachA f A s) :
    ∀ c, g (s.pc c) := by
  have enter : ∀ {s : S} {t : Tid} {p : Step × List Ret}, (∀ c, g (s.pc c)) → g (some p) →
      ∀ c, g ((s.enter t p).pc c) := by
    intro s t p h hp c
    rw [enter_pc]
    by_cases e : c = s.nextC
    · rw [e, upd_self]; exact hp
    · rw [upd_ne e]; exact h c
  induction hs with
  | init => exact fun _ => h0
  | @next s s' l _ _ hn ih =>
    cases l with
    | go t =>
      simp only [next] at hn
      split at hn
      · rename_i c rest ht
        split at hn
        · rename_i p k hp
          cases hn
          obtain ⟨q, e, hq⟩ := cstep_kind (f := f) (t := t) (rest := rest) hp
          intro d
          rw [e]
          by_cases e : d = c
          · rw [e, upd_self]; exact hstep s c p k q hq (hp ▸ ih c)
          · rw [upd_ne e]; exact ih d
        · cases hn
      · cases hn; exact ih
      · cases hn
    | call t k =>
      simp only [next] at hn
      split at hn
      · cases hn; exact enter ih (hstart k)
      · cases hn
    | signal t x =>
      simp only [next] at hn
      split at hn
      · cases hn
      · split at hn
        · cases hn; exact enter ih (hsig x)
        · cases hn
    | interrupt t =>
      simp only [next] at hn
      split at hn
      · cases hn
      · cases hn; exact ih
    | unwind t n =>
      simp only [next] at hn
      split at hn
      · cases hn
        intro c
        simp only
        split
        · exact h0
        · exact ih c
      · cases hn
    | fork t =>
      simp only [next] at hn
      split at hn
      · cases hn
        intro c
        simp only
        split
        · exact ih c
        · exact h0
      · cases hn
    | setenv t e =>
      simp only [next] at hn
      split at hn
      · cases hn; exact ih
      · cases hn

theorem shape_reach {f : Cfg} {A : S → Lbl → Prop} {s : S} (hs : ReachA f A s) : ∀ c, shape (s.pc c) = true :=
  pc_reach (fun q => shape q = true) rfl (fun _ => start_shape) (fun _ => rfl)
    (fun _ _ _ _ _ h k => kind_shape h k) hs

/-- Where the number must be there. -/
def needs : P → Bool
  | some (.s3, _) | some (.i5, _) | some (.inst _, _) => true
  | _ => false

structure ValI (f : Cfg) (s : S) : Prop where
  sd : ∀ n, s.sd = some n → ok f n
  table : ∀ x ∈ s.table, ok f x
  pc : ∀ c v k, s.pc c = some (.c3 v, k) → ok f v
  needs : ∀ c, needs (s.pc c) = true → s.sd ≠ none
  ev : ∀ c v, Ev.answer c v ∈ s.tr → ∃ n, v = some n ∧ ok f n

theorem valI_same {f : Cfg} {s s' : S} (h : ValI f s) (h1 : s'.sd = s.sd) (h2 : s'.table = s.table)
    (h3 : ∀ c v k, s'.pc c = some (.c3 v, k) → ok f v)
    (h4 : ∀ c, SigI.needs (s'.pc c) = true → s.sd ≠ none)
    (h5 : ∀ c v, Ev.answer c v ∈ s'.tr → Ev.answer c v ∈ s.tr ∨ v = s.sd ∧ s.sd ≠ none) : ValI f s' where
  sd := h1 ▸ h.sd
  table := h2 ▸ h.table
  pc := h3
  needs c hc := h1 ▸ h4 c hc
  ev c v hv := by
    rcases h5 c v hv with k | ⟨rfl, k⟩
    · exact h.ev c v k
    · cases e : s.sd with
      | none => exact absurd e k
      | some n => exact ⟨n, rfl, h.sd n e⟩

theorem retP_c3 {k : List Ret} {v : Nat} {k' : List Ret} : retP k ≠ some (.c3 v, k') := by
  rcases k with - | ⟨- | - | - | - | -, k⟩ <;> nofun

theorem initK_needs {k : List Ret} (h : initK k = true) : needs (retP k) = false := by
  rcases initK_cases h with rfl | rfl | ⟨g, x, rfl⟩ | ⟨g, x, rfl⟩ <;> rfl

theorem val_cstep {f : Cfg} (hn : 31 ≤ f.nsig) {s : S} (h : ValI f s) {t : Tid} {c : Call} {rest : List Slot}
    {p : Step} {k : List Ret} (hp : s.pc c = some (p, k)) (hs : shape (some (p, k)) = true) :
    ValI f (cstep f s t c rest k p) := by
  have hneeds := h.needs c
  rw [hp] at hneeds
  have c3 : ∀ {q : P} {s' : S}, s'.pc = upd s.pc c q → (∀ v k, q = some (.c3 v, k) → ok f v) →
      ∀ d v k, s'.pc d = some (.c3 v, k) → ok f v := by
    intro q s' e hq d v k hd
    rw [e] at hd
    by_cases e : d = c
    · rw [e, upd_self] at hd; exact hq v k hd
    · rw [upd_ne e] at hd; exact h.pc d v k hd
  have nd : ∀ {q : P} {s' : S}, s'.pc = upd s.pc c q → (needs q = true → s.sd ≠ none) →
      ∀ d, needs (s'.pc d) = true → s.sd ≠ none := by
    intro q s' e hq d hd
    rw [e] at hd
    by_cases e : d = c
    · rw [e, upd_self] at hd; exact hq hd
    · rw [upd_ne e] at hd; exact h.needs d hd
  have plain : ∀ {s' : S} (q : P), s'.pc = upd s.pc c q → s'.sd = s.sd → s'.table = s.table →
      (∀ v k, q = some (.c3 v, k) → ok f v) → (needs q = true → s.sd ≠ none) →
      (∀ c v, Ev.answer c v ∈ s'.tr → Ev.answer c v ∈ s.tr ∨ v = s.sd ∧ s.sd ≠ none) → ValI f s' :=
    fun q e1 e2 e3 e4 e5 e6 => valI_same h e2 e3 (c3 e1 e4) (nd e1 e5) e6
  have nil : ∀ {a : Prop}, (k == []) = true → (k = [] → a) → a := fun e h => h (by simpa using e)
  cases p with
  | test =>
    simp only [cstep]
    split
    · exact plain _ ret_pc ret_sd ret_table (fun _ _ e => absurd e retP_c3)
        (fun e => by rw [initK_needs hs] at e; cases e) (fun _ _ e => .inl (by simpa using e))
    · exact plain _ rfl rfl rfl nofun nofun (fun _ _ e => .inl e)
  | set => exact plain _ rfl rfl rfl nofun nofun (fun _ _ e => .inl e)
  | clear => exact plain _ rfl rfl rfl nofun nofun (fun _ _ e => .inl e)
  | mark => exact plain _ rfl rfl rfl nofun nofun (fun _ _ e => .inl e)
  | c0 =>
    simp only [cstep]
    split
    · rename_i n hsd
      exact plain _ ret_pc ret_sd ret_table (fun _ _ e => absurd e retP_c3) (fun _ => by rw [hsd]; nofun)
        (fun _ _ e => .inl (by simpa using e))
    · exact plain _ rfl rfl rfl nofun nofun (fun _ _ e => .inl e)
  | c1 =>
    simp only [cstep]
    split
    · rename_i tbl ht
      refine ⟨h.sd, ok_table hn ht, c3 rfl nofun, nd rfl nofun, h.ev⟩
    · exact h
  | c2 =>
    exact plain _ rfl rfl rfl (fun v k e => by cases e; exact ok_pick hn h.table) nofun (fun _ _ e => .inl e)
  | c3 v =>
    have hv := h.pc c v k hp
    refine ⟨fun n e => ?_, by simpa [cstep] using h.table, ?_, fun d _ => by simp [cstep], by simpa [cstep] using h.ev⟩
    · simp only [cstep, ret_sd] at e; cases e; exact hv
    · exact c3 (q := retP k) (by simp [cstep]) fun _ _ e => absurd e retP_c3
  | i5 =>
    simp only [cstep]
    split
    · rename_i n hsd
      exact plain (some (.inst 1, k)) rfl rfl rfl nofun (fun _ => by rw [hsd]; nofun) (fun _ _ e => .inl e)
    · exact h
  | inst g =>
    have := hneeds rfl
    simp only [cstep]
    split
    · split
      · exact plain (some (.inst (g + 1), k)) rfl rfl rfl nofun (fun _ => this) (fun _ _ e => .inl e)
      · exact plain (some (.inst (g + 1), k)) rfl rfl rfl nofun (fun _ => this) (fun _ _ e => .inl e)
    · exact plain (retP k) (by simp) (by simp [S.log]) (by simp [S.log]) (fun _ _ e => absurd e retP_c3)
        (fun e => by rw [initK_needs hs] at e; cases e) (fun _ _ e => .inl (by simpa using e))
  | s0 =>
    simp only [cstep]
    split
    · rename_i n hsd
      refine plain (retP k) (by simp) (by simp [S.log]) (by simp [S.log]) (fun _ _ e => absurd e retP_c3)
        (fun _ => by rw [hsd]; nofun) (fun d v e => ?_)
      simp only [ret_tr, log_tr, List.mem_cons] at e
      rcases e with e | e
      · cases e; exact .inr ⟨hsd.symm, by rw [hsd]; nofun⟩
      · exact .inl e
    · exact plain _ rfl rfl rfl nofun nofun (fun _ _ e => .inl e)
  | s3 =>
    have := hneeds rfl
    refine plain (retP k) (by simp [cstep]) (by simp [cstep, S.log]) (by simp [cstep, S.log])
      (fun _ _ e => absurd e retP_c3) (fun _ => this) (fun d v e => ?_)
    simp only [cstep, ret_tr, log_tr, List.mem_cons] at e
    rcases e with e | e
    · cases e; exact .inr ⟨rfl, this⟩
    · exact .inl e
  | a1 g x =>
    simp only [cstep]
    split
    · exact plain (some (.a2 g x, k)) rfl rfl rfl nofun nofun (fun _ _ e => .inl e)
    · exact nil hs fun e => by
        subst e
        exact plain (retP []) ret_pc ret_sd ret_table nofun nofun (fun _ _ e => .inl (by simpa using e))
  | a2 g x =>
    exact nil hs fun e => by
      subst e
      exact plain (retP []) (by simp [cstep]) (by simp [cstep, S.log]) (by simp [cstep, S.log]) nofun nofun
        (fun _ _ e => .inl (by simpa [cstep] using e))
  | b1 g x =>
    refine nil hs fun e => ?_
    subst e
    simp only [cstep]
    split
    · exact plain (retP []) (by simp) (by simp [S.log]) (by simp [S.log]) nofun nofun
        (fun _ _ e => .inl (by simpa using e))
    · exact plain (retP []) ret_pc ret_sd ret_table nofun nofun (fun _ _ e => .inl (by simpa using e))
  | d1 g =>
    exact nil hs fun e => by
      subst e
      exact plain (retP []) (by simp [cstep]) (by simp [cstep, S.log]) (by simp [cstep, S.log]) nofun nofun
        (fun _ _ e => .inl (by simpa [cstep] using e))

theorem val_enter {f : Cfg} {s : S} (h : ValI f s) {t : Tid} {p : Step × List Ret}
    (hp : ∀ v k, p ≠ (.c3 v, k)) (hn : needs (some p) = false) : ValI f (s.enter t p) := by
  refine valI_same h rfl rfl (fun d v k hd => ?_) (fun d hd => ?_) fun _ _ e => .inl e
  · rw [enter_pc] at hd
    by_cases e : d = s.nextC
    · rw [e, upd_self] at hd; exact absurd (Option.some.inj hd) (hp v k)
    · rw [upd_ne e] at hd; exact h.pc d v k hd
  · rw [enter_pc] at hd
    by_cases e : d = s.nextC
    · rw [e, upd_self, hn] at hd; cases hd
    · rw [upd_ne e] at hd; exact h.needs d hd

theorem val_inv {f : Cfg} (hn : 31 ≤ f.nsig) {A : S → Lbl → Prop} {s : S} (hs : ReachA f A s) : ValI f s := by
  induction hs with
  | init => exact ⟨nofun, nofun, nofun, (fun _ h => by cases h), nofun⟩
  | @next s s' l hs _ hx ih =>
    have hsh := shape_reach hs
    have drop : ∀ {s' : S}, s'.sd = s.sd → s'.table = s.table → (∀ c, s'.pc c = s.pc c ∨ s'.pc c = none) →
        (∀ c v, Ev.answer c v ∈ s'.tr → Ev.answer c v ∈ s.tr) → ValI f s' := by
      intro s' e1 e2 e3 e4
      refine valI_same ih e1 e2 (fun c v k hc => ?_) (fun c hc => ?_) fun c v h => .inl (e4 c v h)
      · rcases e3 c with e | e
        · rw [e] at hc; exact ih.pc c v k hc
        · rw [e] at hc; cases hc
      · rcases e3 c with e | e
        · rw [e] at hc; exact ih.needs c hc
        · rw [e] at hc; cases hc
    cases l with
    | go t =>
      simp only [next] at hx
      split at hx
      · rename_i c rest ht
        split at hx
        · rename_i p k hp
          cases hx
          exact val_cstep hn ih hp (hp ▸ hsh c)
        · cases hx
      · cases hx; exact drop rfl rfl (fun _ => .inl rfl) fun _ _ h => h
      · cases hx
    | call t k =>
      simp only [next] at hx
      split at hx
      · cases hx; exact val_enter ih (by cases k <;> nofun) (by cases k <;> rfl)
      · cases hx
    | signal t x =>
      simp only [next] at hx
      split at hx
      · cases hx
      · split at hx
        · cases hx; exact val_enter ih nofun rfl
        · cases hx
    | interrupt t =>
      simp only [next] at hx
      split at hx
      · cases hx
      · cases hx; exact drop rfl rfl (fun _ => .inl rfl) fun _ _ h => h
    | unwind t n =>
      simp only [next] at hx
      split at hx
      · cases hx
        refine drop rfl rfl (fun c => ?_) fun _ _ h => h
        simp only
        split
        · exact .inr rfl
        · exact .inl rfl
      · cases hx
    | fork t =>
      simp only [next] at hx
      split at hx
      · cases hx
        refine drop rfl rfl (fun c => ?_) (fun _ _ h => by simpa using h)
        simp only
        split
        · exact .inl rfl
        · exact .inr rfl
      · cases hx
    | setenv t e =>
      simp only [next] at hx
      split at hx
      · cases hx; exact drop rfl rfl (fun _ => .inl rfl) fun _ _ h => h
      · cases hx

end Libmonitor.SigI
