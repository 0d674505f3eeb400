import Verif.SigI.Lemmas

/-!
# Invariants for C84: the first monitor_signal_init has finished before anything else
-/

namespace Libmonitor.SigI

open Sig (Cfg)

theorem usable_iff {f : Cfg} {g : Nat} :
    (1 ≤ g ∧ g < f.nsig ∧ ¬ Sig.avoid g = true ∧ f.kernelOk g = true) ↔ Usable f g := by
  simp [Usable, Sig.avoid, Sig.avoidList]

theorem avoid_iff {f : Cfg} {g : Nat} (h1 : 1 ≤ g) (h2 : g < f.nsig) :
    (Sig.avoid g || !f.kernelOk g) = true ↔ ¬ Usable f g := by
  rw [← usable_iff]
  cases Sig.avoid g <;> cases f.kernelOk g <;> simp [h1, h2]

/-! ### Before -/

/-- The handlers below `g` are installed. -/
structure Inst (f : Cfg) (s : S) (g : Nat) : Prop where
  pos : 1 ≤ g
  ours : ∀ x, Usable f x → x < g → s.kernel x = .ours ∧ s.kern x = true ∧ s.app x = .app (s.orig x)
  orig : ∀ x, ¬ (Usable f x ∧ x < g) → s.kernel x = .app (s.orig x)

def Kept (s : S) : Prop := ∃ n, s.sd = some n ∧ s.keep n = true

def Fresh (s : S) : Prop := ∀ x, s.kernel x = .app (s.orig x)

/-- What holds while the first call is at a step. -/
def At (f : Cfg) (s : S) : P → Prop
  | none | some (.s0, []) => s.run = false ∧ s.sd = none ∧ Fresh s
  | some (.test, k) | some (.set, k) => initK k = true ∧ s.run = false ∧ s.sd = none ∧ Fresh s
  | some (.clear, k) => initK k = true ∧ s.run = true ∧ s.sd = none ∧ Fresh s
  | some (.mark, k) =>
    initK k = true ∧ s.run = true ∧ s.sd = none ∧ Fresh s ∧ (∀ x, s.client x = none)
  | some (.c0, .i5 :: k) | some (.c1, .i5 :: k) | some (.c2, .i5 :: k) | some (.c3 _, .i5 :: k) =>
    initK k = true ∧ s.run = true ∧ s.sd = none ∧ Fresh s ∧ (∀ x, s.client x = none)
  | some (.i5, k) =>
    initK k = true ∧ s.run = true ∧ s.sd ≠ none ∧ Fresh s ∧ (∀ x, s.client x = none)
  | some (.inst g, k) =>
    initK k = true ∧ s.run = true ∧ Kept s ∧ Inst f s g ∧ (∀ x, s.client x = none)
  | _ => False

structure Before (f : Cfg) (s : S) : Prop where
  tr : ∀ e ∈ s.tr, e = .fork
  th : (s.th 0 = [] ∨ s.th 0 = [none]) ∧ (∀ c, s.pc c = none) ∧ At f s none ∨
    ∃ c, s.th 0 = [some c, none] ∧ (∀ d, d ≠ c → s.pc d = none) ∧ s.pc c ≠ none ∧ At f s (s.pc c)

/-! ### Afterwards -/

/-- Where a call can be. -/
def late (f : Cfg) (s : S) : P → Prop
  | none => True
  | some (.test, k) => initK k = true
  | some (.c0, k) => k = [.s3]
  | some (.s0, k) | some (.s3, k) | some (.a1 _ _, k) | some (.b1 _ _, k) => k = []
  | some (.a2 g _, k) => k = [] ∧ s.keep g = true
  | some (.d1 g, k) => k = [] ∧ Usable f g
  | _ => False

structure Over (f : Cfg) (s : S) : Prop where
  run : s.run = true
  kept : Kept s
  client : ∀ x, s.client x = lastClient x s.tr
  app : ∀ x, Usable f x → s.kernel x = .ours ∧ s.kern x = true ∧ s.app x = .app (lastAppl s.orig x s.tr)
  ours : ∀ x, s.kernel x = .ours → Usable f x
  pc : ∀ c, late f s (s.pc c)
  ans : ∀ c v, Ev.answer c v ∈ s.tr → v = s.sd
  keep : ∀ c g h, Ev.client c g h ∈ s.tr → s.keep g = true
  right : Right s.orig s.tr
  fin : ∃ c, Ev.fin c ∈ s.tr

theorem forks {orig : Nat → Hand} {l : List Ev} (h : ∀ e ∈ l, e = .fork) :
    (∀ x, lastClient x l = none) ∧ (∀ x, lastAppl orig x l = orig x) ∧ Right orig l := by
  induction l with
  | nil => exact ⟨fun _ => rfl, fun _ => rfl, trivial⟩
  | cons e l ih =>
    have ih := ih fun e he => h e (List.mem_cons_of_mem _ he)
    cases h e List.mem_cons_self
    exact ih

theorem retP_late {f : Cfg} {s : S} {k : List Ret} (h : initK k = true) : late f s (retP k) := by
  rcases initK_cases h with rfl | rfl | ⟨g, x, rfl⟩ | ⟨g, x, rfl⟩
  · exact trivial
  · exact rfl
  · exact rfl
  · exact rfl

theorem late_mono {f : Cfg} {s s' : S} (h : ∀ x, s.keep x = true → s'.keep x = true) {q : P}
    (hq : late f s q) : late f s' q := by
  rcases q with - | ⟨p, k⟩
  · exact trivial
  · cases p <;> first | exact hq | exact ⟨hq.1, h _ hq.2⟩

/-- The first call finishes monitor_signal_init. -/
theorem over_fin {f : Cfg} {s : S} {c : Call} {g : Nat} {k : List Ret} {t : Tid} {rest : List Slot}
    (htr : ∀ e ∈ s.tr, e = .fork) (hother : ∀ d, d ≠ c → s.pc d = none)
    (h : At f s (some (.inst g, k))) (hg : ¬ g < f.nsig) : Over f ((s.log (.fin c)).ret t c rest k) := by
  obtain ⟨hk, hr, ⟨n, hn, hkeep⟩, hi, hcl⟩ := h
  have hf := forks (orig := s.orig) htr
  have hin : ∀ x, Usable f x → x < g := fun x hx => by have := hx.2.1; omega
  refine ⟨by simpa [S.log] using hr, ⟨n, by simpa [S.log] using hn, by simpa [S.log] using hkeep⟩, fun x => ?_,
    fun x hx => ?_, fun x hx => ?_, fun d => ?_, fun d v hv => ?_, fun d g h hv => ?_, ?_, ⟨c, by simp⟩⟩
  · simp only [ret_client, ret_tr, log_tr]
    exact (hcl x).trans (hf.1 x).symm
  · simp only [ret_kernel, ret_kern, ret_app, ret_orig, ret_tr, log_tr]
    have := hi.ours x hx (hin x hx)
    refine ⟨this.1, this.2.1, this.2.2.trans ?_⟩
    exact congrArg Act.app (hf.2.1 x).symm
  · simp only [ret_kernel] at hx
    by_cases hu : Usable f x ∧ x < g
    · exact hu.1
    · have hx : s.kernel x = .ours := hx
      rw [hi.orig x hu] at hx; cases hx
  · rw [ret_pc, log_pc]
    by_cases e : d = c
    · rw [e, upd_self]; exact retP_late hk
    · rw [upd_ne e, hother d e]; exact trivial
  · simp only [ret_tr, log_tr, List.mem_cons] at hv
    rcases hv with hv | hv
    · cases hv
    · cases htr _ hv
  · simp only [ret_tr, log_tr, List.mem_cons] at hv
    rcases hv with hv | hv
    · cases hv
    · cases htr _ hv
  · simp only [ret_orig, ret_tr, log_tr]
    exact hf.2.2

theorem before_go {f : Cfg} {s : S} (h : Before f s) {c : Call} (ht : s.th 0 = [some c, none]) {p : Step}
    {k : List Ret} (hp : s.pc c = some (p, k)) :
    Before f (cstep f s 0 c [none] k p) ∨ Over f (cstep f s 0 c [none] k p) := by
  have hc : (∀ d, d ≠ c → s.pc d = none) ∧ At f s (some (p, k)) := by
    rcases h.th with ⟨e | e, -⟩ | ⟨d, e, h1, -, h3⟩
    · rw [ht] at e; cases e
    · rw [ht] at e; cases e
    · rw [ht] at e; cases e; exact ⟨h1, hp ▸ h3⟩
  obtain ⟨hother, ha⟩ := hc
  have mk : ∀ {s' : S} {q : Step × List Ret}, s'.pc = upd s.pc c (some q) → s'.th = s.th → s'.tr = s.tr →
      At f s' (some q) → Before f s' := by
    intro s' q h1 h2 h3 h4
    refine ⟨h3 ▸ h.tr, .inr ⟨c, by rw [h2]; exact ht, fun d hd => ?_, ?_, ?_⟩⟩
    · rw [h1, upd_ne hd]; exact hother d hd
    · rw [h1, upd_self]; nofun
    · rw [h1, upd_self]; exact h4
  cases p with
  | test =>
    simp only [cstep, ha.2.1]
    exact .inl (mk rfl rfl rfl ha)
  | set => exact .inl (mk rfl rfl rfl ⟨ha.1, rfl, ha.2.2⟩)
  | clear => exact .inl (mk rfl rfl rfl ⟨ha.1, ha.2.1, ha.2.2.1, ha.2.2.2, fun _ => rfl⟩)
  | mark => exact .inl (mk rfl rfl rfl ha)
  | c0 =>
    rcases k with _ | ⟨_ | _ | _ | _ | _, k⟩ <;> try exact ha.elim
    have : s.sd = none := ha.2.2.1
    simp only [cstep, this]
    exact .inl (mk rfl rfl rfl ha)
  | c1 =>
    rcases k with _ | ⟨_ | _ | _ | _ | _, k⟩ <;> try exact ha.elim
    simp only [cstep]
    split
    · exact .inl (mk rfl rfl rfl ha)
    · exact .inl h
  | c2 =>
    rcases k with _ | ⟨_ | _ | _ | _ | _, k⟩ <;> try exact ha.elim
    exact .inl (mk rfl rfl rfl ha)
  | c3 v =>
    rcases k with _ | ⟨_ | _ | _ | _ | _, k⟩ <;> try exact ha.elim
    exact .inl (mk (q := (.i5, k)) rfl rfl rfl ⟨ha.1, ha.2.1, nofun, ha.2.2.2⟩)
  | i5 =>
    simp only [cstep]
    split
    · rename_i v hv
      refine .inl (mk rfl rfl rfl ⟨ha.1, ha.2.1, ⟨v, hv, by simp⟩, ⟨Nat.le_refl 1, ?_, ?_⟩, ha.2.2.2.2⟩)
      · intro x hx hlt; have := hx.1; omega
      · intro x _; exact ha.2.2.2.1 x
    · exact .inl h
  | inst g =>
    simp only [cstep]
    obtain ⟨hk, hr, hkept, hi, hcl⟩ := ha
    split
    · rename_i hg
      split
      · rename_i hav
        rw [avoid_iff hi.pos hg] at hav
        refine .inl (mk rfl rfl rfl ⟨hk, hr, hkept, ⟨by omega, ?_, ?_⟩, hcl⟩)
        · intro x hx hlt
          have : x ≠ g := fun e => hav (e ▸ hx)
          exact hi.ours x hx (by omega)
        · intro x hx
          exact hi.orig x fun ⟨h1, h2⟩ => hx ⟨h1, by omega⟩
      · rename_i hav
        rw [avoid_iff hi.pos hg, Classical.not_not] at hav
        refine .inl (mk rfl rfl rfl ⟨hk, hr, hkept, ⟨by omega, ?_, ?_⟩, hcl⟩)
        · intro x hx hlt
          by_cases e : x = g
          · subst e
            simp only [if_true, true_and]
            exact hi.orig x fun h => by omega
          · simp only [if_neg e]
            exact hi.ours x hx (by omega)
        · intro x hx
          have e : x ≠ g := fun e => hx ⟨e ▸ hav, by omega⟩
          simp only [if_neg e]
          exact hi.orig x fun ⟨h1, h2⟩ => hx ⟨h1, by omega⟩
    · exact .inr (over_fin h.tr hother ⟨hk, hr, hkept, hi, hcl⟩ ‹_›)
  | s0 =>
    rcases k with _ | ⟨_, k⟩
    · have : s.sd = none := ha.2.1
      simp only [cstep, this]
      exact .inl (mk rfl rfl rfl ⟨rfl, ha⟩)
    · exact ha.elim
  | s3 => exact ha.elim
  | a1 => exact ha.elim
  | a2 => exact ha.elim
  | b1 => exact ha.elim
  | d1 => exact ha.elim

theorem over_pc {f : Cfg} {s s' : S} (h : Over f s) (h1 : s'.run = s.run) (h2 : s'.sd = s.sd)
    (h3 : ∀ x, s.keep x = true → s'.keep x = true) (h4 : s'.client = s.client) (h5 : s'.app = s.app)
    (h6 : s'.kern = s.kern) (h7 : s'.kernel = s.kernel) (h8 : s'.orig = s.orig) (h9 : s'.tr = s.tr)
    (h10 : ∀ c, late f s' (s'.pc c)) : Over f s' where
  run := h1 ▸ h.run
  kept := let ⟨n, a, b⟩ := h.kept; ⟨n, h2 ▸ a, h3 n b⟩
  client := by rw [h4, h9]; exact h.client
  app := by rw [h5, h6, h7, h8, h9]; exact h.app
  ours := by rw [h7]; exact h.ours
  pc := h10
  ans := by rw [h2, h9]; exact h.ans
  keep c g x hx := h3 g (h.keep c g x (h9 ▸ hx))
  right := by rw [h8, h9]; exact h.right
  fin := by rw [h9]; exact h.fin

/-- An event that says nothing about handlers. -/
theorem over_log {f : Cfg} {s s' : S} (h : Over f s) {e : Ev} (h1 : s'.run = s.run) (h2 : s'.sd = s.sd)
    (h3 : s'.keep = s.keep) (h4 : s'.client = s.client) (h5 : s'.app = s.app)
    (h6 : s'.kern = s.kern) (h7 : s'.kernel = s.kernel) (h8 : s'.orig = s.orig) (h9 : s'.tr = e :: s.tr)
    (h10 : ∀ c, late f s' (s'.pc c))
    (he : (∃ c, e = .answer c s.sd) ∨ e = .fork ∨
      ∃ c x, Usable f x ∧ e = .deliver c x (s.client x) (s.app x)) : Over f s' := by
  have l1 : ∀ x, lastClient x (e :: s.tr) = lastClient x s.tr := by
    intro x; rcases he with ⟨c, rfl⟩ | rfl | ⟨c, x, -, rfl⟩ <;> rfl
  have l2 : ∀ x, lastAppl s.orig x (e :: s.tr) = lastAppl s.orig x s.tr := by
    intro x; rcases he with ⟨c, rfl⟩ | rfl | ⟨c, x, -, rfl⟩ <;> rfl
  refine ⟨h1 ▸ h.run, let ⟨n, a, b⟩ := h.kept; ⟨n, h2 ▸ a, h3 ▸ b⟩, fun x => ?_, fun x hx => ?_,
    by rw [h7]; exact h.ours, h10, fun c v hv => ?_, fun c g x hx => ?_, ?_, ?_⟩
  · rw [h4, h9, l1]; exact h.client x
  · rw [h5, h6, h7, h8, h9, l2]; exact h.app x hx
  · rw [h9] at hv
    rw [h2]
    rcases List.mem_cons.1 hv with hv | hv
    · rcases he with ⟨d, rfl⟩ | rfl | ⟨d, x, -, rfl⟩ <;> cases hv
      rfl
    · exact h.ans c v hv
  · rw [h9] at hx
    rw [h3]
    rcases List.mem_cons.1 hx with hv | hv
    · rcases he with ⟨d, rfl⟩ | rfl | ⟨d, x, -, rfl⟩ <;> cases hv
    · exact h.keep c g x hv
  · rw [h8, h9]
    rcases he with ⟨c, rfl⟩ | rfl | ⟨c, x, hx, rfl⟩
    · exact h.right
    · exact h.right
    · exact ⟨h.client x, (h.app x hx).2.2, h.right⟩
  · obtain ⟨c, hc⟩ := h.fin
    exact ⟨c, by rw [h9]; exact List.mem_cons_of_mem _ hc⟩

theorem over_go {f : Cfg} {s : S} (h : Over f s) {t : Tid} {c : Call} {rest : List Slot} {p : Step}
    {k : List Ret} (hp : s.pc c = some (p, k)) : Over f (cstep f s t c rest k p) := by
  have hl := h.pc c
  rw [hp] at hl
  have lt : ∀ {s' : S} {q : P}, s'.pc = upd s.pc c q → (∀ x, s.keep x = true → s'.keep x = true) →
      late f s' q → ∀ d, late f s' (s'.pc d) := by
    intro s' q h1 h2 h3 d
    rw [h1]
    by_cases e : d = c
    · rw [e, upd_self]; exact h3
    · rw [upd_ne e]; exact late_mono h2 (h.pc d)
  obtain ⟨n, hn, hkeep⟩ := h.kept
  cases p with
  | test =>
    simp only [cstep, h.run, if_true]
    exact over_pc h ret_run ret_sd (by simp) ret_client ret_app ret_kern ret_kernel ret_orig ret_tr
      (lt ret_pc (by simp) (retP_late hl))
  | c0 =>
    simp only [cstep, hn]
    cases hl
    exact over_pc h ret_run ret_sd (by simp) ret_client ret_app ret_kern ret_kernel ret_orig ret_tr
      (lt ret_pc (by simp) rfl)
  | s0 =>
    simp only [cstep, hn]
    cases hl
    refine over_log h (e := .answer c (some n)) rfl rfl rfl rfl rfl rfl rfl rfl rfl (lt ret_pc (fun _ h => h) trivial) ?_
    exact .inl ⟨c, by rw [hn]⟩
  | s3 =>
    cases hl
    exact over_log h (e := .answer c s.sd) rfl rfl rfl rfl rfl rfl rfl rfl rfl (lt ret_pc (fun _ h => h) trivial)
      (.inl ⟨c, rfl⟩)
  | a1 g x =>
    cases hl
    simp only [cstep]
    split
    · exact over_pc h rfl rfl (by simp +contextual) rfl rfl rfl rfl rfl rfl
        (lt (q := some (.a2 g x, [])) rfl (by simp +contextual) ⟨rfl, by simp⟩)
    · exact over_pc h rfl rfl (fun _ h => h) rfl rfl rfl rfl rfl rfl (lt ret_pc (fun _ h => h) trivial)
  | a2 g x =>
    obtain ⟨rfl, hg⟩ := hl
    refine ⟨h.run, h.kept, fun y => ?_, fun y hy => h.app y hy, h.ours, lt (q := none) rfl (fun _ h => h) trivial,
      fun d v hv => ?_, fun d y z hz => ?_, h.right, ?_⟩
    · change (if y = g then some x else s.client y) = if y = g then some x else lastClient y s.tr
      rw [h.client y]
    · rcases List.mem_cons.1 hv with hv | hv
      · cases hv
      · exact h.ans d v hv
    · rcases List.mem_cons.1 hz with hv | hv
      · cases hv; exact hg
      · exact h.keep d y z hv
    · obtain ⟨d, hd⟩ := h.fin
      exact ⟨d, List.mem_cons_of_mem _ hd⟩
  | b1 g x =>
    cases hl
    simp only [cstep]
    split
    · rename_i hg
      rw [usable_iff] at hg
      refine ⟨h.run, h.kept, fun y => ?_, fun y hy => ?_, fun y hy => ?_, lt (q := none) rfl (fun _ h => h) trivial,
        fun d v hv => ?_, fun d y z hz => ?_, h.right, ?_⟩
      · exact h.client y
      · change (if y = g then (if s.kern g then Act.ours else .app 0) else s.kernel y) = .ours ∧
          s.kern y = true ∧ (if y = g then .app x else s.app y) =
            Act.app (if y = g then x else lastAppl s.orig y s.tr)
        by_cases e : y = g
        · subst e
          simp only [if_true, (h.app y hy).2.1, and_self]
        · simp only [if_neg e]
          exact h.app y hy
      · by_cases e : y = g
        · exact e ▸ hg
        · simp only [if_neg e] at hy
          exact h.ours y hy
      · rcases List.mem_cons.1 hv with hv | hv
        · cases hv
        · exact h.ans d v hv
      · rcases List.mem_cons.1 hz with hv | hv
        · cases hv
        · exact h.keep d y z hv
      · obtain ⟨d, hd⟩ := h.fin
        exact ⟨d, List.mem_cons_of_mem _ hd⟩
    · exact over_pc h rfl rfl (fun _ h => h) rfl rfl rfl rfl rfl rfl (lt ret_pc (fun _ h => h) trivial)
  | d1 g =>
    obtain ⟨rfl, hg⟩ := hl
    exact over_log h (e := .deliver c g (s.client g) (s.app g)) rfl rfl rfl rfl rfl rfl rfl rfl rfl
      (lt ret_pc (fun _ h => h) trivial) (.inr (.inr ⟨c, g, hg, rfl⟩))
  | set => exact hl.elim
  | clear => exact hl.elim
  | mark => exact hl.elim
  | c1 => exact hl.elim
  | c2 => exact hl.elim
  | c3 => exact hl.elim
  | i5 => exact hl.elim
  | inst => exact hl.elim

theorem over_enter {f : Cfg} {s : S} (h : Over f s) {t : Tid} {p : Step × List Ret} (hp : late f s (some p)) :
    Over f (s.enter t p) := by
  refine over_pc h rfl rfl (fun _ h => h) rfl rfl rfl rfl rfl rfl fun d => ?_
  rw [enter_pc]
  by_cases e : d = s.nextC
  · rw [e, upd_self]; exact late_mono (fun _ h => h) hp
  · rw [upd_ne e]; exact late_mono (fun _ h => h) (h.pc d)

theorem over_next {f : Cfg} {s s' : S} (h : Over f s) {l : Lbl} (hn : next f s l = some s') : Over f s' := by
  cases l with
  | go t =>
    simp only [next] at hn
    split at hn
    · split at hn
      · cases hn; exact over_go h ‹_›
      · cases hn
    · cases hn; exact over_pc h rfl rfl (fun _ h => h) rfl rfl rfl rfl rfl rfl fun d => h.pc d
    · cases hn
  | call t k =>
    simp only [next] at hn
    split at hn
    · cases hn; exact over_enter h (by cases k <;> rfl)
    · cases hn
  | signal t x =>
    simp only [next] at hn
    split at hn
    · cases hn
    · split at hn
      · cases hn; exact over_enter h ⟨rfl, h.ours x ‹_›⟩
      · cases hn
  | interrupt t =>
    simp only [next] at hn
    split at hn
    · cases hn
    · cases hn; exact over_pc h rfl rfl (fun _ h => h) rfl rfl rfl rfl rfl rfl fun d => h.pc d
  | unwind t n =>
    simp only [next] at hn
    split at hn
    · cases hn
      refine over_pc h rfl rfl (fun _ h => h) rfl rfl rfl rfl rfl rfl fun d => ?_
      simp only
      split
      · exact trivial
      · exact h.pc d
    · cases hn
  | fork t =>
    simp only [next] at hn
    split at hn
    · cases hn
      refine over_log h rfl rfl rfl rfl rfl rfl rfl rfl rfl (fun d => ?_) (.inr (.inl rfl))
      simp only
      split
      · exact h.pc d
      · exact trivial
    · cases hn
  | setenv t e =>
    simp only [next] at hn
    split at hn
    · cases hn; exact over_pc h rfl rfl (fun _ h => h) rfl rfl rfl rfl rfl rfl fun d => h.pc d
    · cases hn

theorem before_next {f : Cfg} {s s' : S} (h : Before f s) {l : Lbl} (hc : Calm l) (hn : next f s l = some s') :
    Before f s' ∨ Over f s' := by
  cases l with
  | go t =>
    obtain rfl : t = 0 := hc
    rcases h.th with ⟨e | e, -⟩ | ⟨c, e, -, h2, -⟩
    · simp [next, e] at hn
    · simp [next, e] at hn
    · simp only [next, e] at hn
      split at hn
      · cases hn; exact before_go h e ‹_›
      · cases hn
  | call t k =>
    obtain rfl : t = 0 := hc
    rcases h.th with ⟨e | e, hp, ha⟩ | ⟨c, e, -, h2, -⟩
    · simp [next, e] at hn
    · simp only [next, e] at hn
      cases hn
      refine .inl ⟨h.tr, .inr ⟨s.nextC, ?_, fun d hd => ?_, ?_, ?_⟩⟩
      · simp [S.enter, S.setTh, S.goto, e]
      · rw [enter_pc, upd_ne hd]; exact hp d
      · rw [enter_pc, upd_self]; nofun
      · rw [enter_pc, upd_self]
        cases k
        · exact ⟨rfl, ha⟩
        · exact ha
        · exact ⟨rfl, ha⟩
        · exact ⟨rfl, ha⟩
    · simp [next, e] at hn
  | signal t x => exact hc.elim
  | interrupt t => exact hc.elim
  | unwind t n =>
    obtain rfl : t = 0 := hc
    rcases h.th with ⟨e | e, hp, ha⟩ | ⟨c, e, -, h2, -⟩
    · simp [next, e] at hn
    · simp only [next, e] at hn
      cases hn
      refine .inl ⟨h.tr, .inl ⟨?_, fun d => ?_, ha⟩⟩
      · cases n with
        | zero => right; simp [S.setTh]
        | succ n => left; simp [S.setTh]
      · simp only [hp d]; split <;> rfl
    · simp [next, e] at hn
  | fork t =>
    obtain rfl : t = 0 := hc
    rcases h.th with ⟨e | e, hp, ha⟩ | ⟨c, e, -, h2, -⟩
    · simp [next, e] at hn
    · simp only [next, e] at hn
      cases hn
      refine .inl ⟨fun e he => ?_, .inl ⟨.inr (by simp), fun d => by simp, ha⟩⟩
      rcases List.mem_cons.1 he with he | he
      · exact he
      · exact h.tr e he
    · simp [next, e] at hn
  | setenv t x =>
    obtain rfl : t = 0 := hc
    rcases h.th with ⟨e | e, hp, ha⟩ | ⟨c, e, -, h2, -⟩
    · simp [next, e] at hn
    · simp only [next, e] at hn
      cases hn
      exact .inl ⟨h.tr, .inl ⟨.inr e, hp, ha⟩⟩
    · simp [next, e] at hn

theorem first_inv {f : Cfg} {s : S} (hs : ReachA f InitFirst s) : Before f s ∨ Over f s := by
  induction hs with
  | init => exact .inl ⟨nofun, .inl ⟨.inr rfl, fun _ => rfl, rfl, rfl, fun _ => rfl⟩⟩
  | next _ ha hn ih =>
    rcases ih with h | h
    · refine before_next h (ha fun c hc => ?_) hn
      cases h.tr _ hc
    · exact .inr (over_next h hn)

end Libmonitor.SigI
