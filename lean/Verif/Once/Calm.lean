import Verif.Once.Serial

/-!
# Invariants for C83: monitor_init_library; executions without signal handlers and threads
-/

namespace Libmonitor.Once

theorem cstep_shape {s : S} {t : Tid} {c : Call} {rest : List Slot} {v : Data} {p : Step} {k : List Ret}
    (hs : shape (some (p, k)) = true) :
    ∃ q, (cstep s t c rest v k p).pc = upd s.pc c q ∧ shape q = true := by
  have hr : shape (retP k) = true ∨ p = .p3 := by
    rcases p with x | x | - | - | - | - | - | - | - | - | - | - <;> (try rcases x) <;>
      (simp only [shape, List.contains_cons, List.contains_nil, Bool.or_false, Bool.or_eq_true, beq_iff_eq] at hs) <;>
      (first
        | (rcases hs with rfl | rfl | rfl | rfl | rfl)
        | (rcases hs with rfl | rfl | rfl | rfl)
        | (rcases hs with rfl | rfl)
        | (subst hs)) <;>
      decide
  have hr' : p ≠ .p3 → shape (retP k) = true := fun h => hr.resolve_right h
  have hb : ∀ x, p = .set x → shape (some (body x k)) = true := by
    rintro x rfl
    cases x <;>
      (simp only [shape, List.contains_cons, List.contains_nil, Bool.or_false, Bool.or_eq_true, beq_iff_eq] at hs) <;>
      (first
        | (rcases hs with rfl | rfl | rfl | rfl | rfl)
        | (rcases hs with rfl | rfl | rfl | rfl)
        | (rcases hs with rfl | rfl)) <;>
      decide
  cases p with
  | test x =>
    simp only [cstep]
    split
    · exact ⟨retP k, by simp, hr' nofun⟩
    · exact ⟨some (.set x, k), rfl, by cases x <;> exact hs⟩
  | set x => exact ⟨some (body x k), rfl, hb x rfl⟩
  | e1 => exact ⟨some (.e2, k), rfl, hs⟩
  | e2 => exact ⟨retP k, by simp [cstep], hr' nofun⟩
  | n2 => exact ⟨retP k, by simp [cstep], hr' nofun⟩
  | l2 => exact ⟨some (.l3, k), rfl, hs⟩
  | l3 => exact ⟨retP k, by simp [cstep], hr' nofun⟩
  | p1 =>
    simp only [cstep]
    split
    · exact ⟨some (.p2, k), rfl, hs⟩
    · split
      · exact ⟨retP k, by simp, hr' nofun⟩
      · exact ⟨some (.p3, k), rfl, hs⟩
  | p2 => exact ⟨some (.p3, k), rfl, hs⟩
  | p3 =>
    have hk : k = [] := by simpa [shape] using hs
    subst hk
    exact ⟨some (.test .lib, [.p4]), rfl, by decide⟩
  | p4 => exact ⟨some (.p5, k), rfl, hs⟩
  | p5 => exact ⟨retP k, by simp [cstep], hr' nofun⟩

theorem enter_pc {s : S} {t : Tid} {p : Step × List Ret} {f : Bool} {d : Data} :
    (s.enter t p f d).pc = upd s.pc s.nextC (some p) := rfl

theorem shape_reach {A : S → Lbl → Prop} {s : S} (hs : ReachA A s) : ∀ c, shape (s.pc c) = true := by
  induction hs with
  | init => exact fun _ => rfl
  | @next s s' l _ _ hn ih =>
    cases l with
    | go t v =>
      simp only [next] at hn
      split at hn
      · rename_i c rest ht
        split at hn
        · rename_i p k hp
          cases hn
          obtain ⟨q, e, hq⟩ := cstep_shape (s := s) (t := t) (c := c) (rest := rest) (v := v) (hp ▸ ih c)
          rw [e]
          exact upd_all (fun d _ => ih d) hq
        · cases hn
      · cases hn; exact ih
      · cases hn
    | call t k =>
      simp only [next] at hn
      split at hn
      · cases hn; rw [enter_pc]; exact upd_all (fun d _ => ih d) (by cases k <;> decide)
      · cases hn
    | interrupt t =>
      simp only [next] at hn
      split at hn
      · cases hn
      · cases hn; exact ih
    | unwind t n =>
      simp only [next] at hn
      split at hn
      · cases hn
        intro c
        simp only
        split
        · rfl
        · exact ih c
      · cases hn
    | fork t v =>
      simp only [next] at hn
      split at hn
      · cases hn
        rw [enter_pc]
        refine upd_all (fun d _ => ?_) (by decide)
        simp only
        split
        · exact ih d
        · rfl
      · cases hn

/-! ### monitor_init_library -/

def pendL : P → Bool
  | some (p, k) => p == .l2 || k.contains .l2
  | none => false

structure LibI (s : S) : Prop where
  none : s.run .lib = false → libs s.tr = 0 ∧ ∀ c, pendL (s.pc c) = false
  uniq : ∀ c d, pendL (s.pc c) = true → pendL (s.pc d) = true → c = d
  pend : ∀ c, pendL (s.pc c) = true → libs s.tr = 0
  le : libs s.tr ≤ 1

theorem libI_same {s s' : S} (h : LibI s) (h1 : s'.run .lib = s.run .lib) (h2 : libs s'.tr = libs s.tr)
    (h3 : ∀ d, pendL (s'.pc d) = true → pendL (s.pc d) = true) : LibI s' where
  none r := by
    obtain ⟨a, b⟩ := h.none (h1 ▸ r)
    refine ⟨h2.trans a, fun c => ?_⟩
    cases e : pendL (s'.pc c) with
    | false => rfl
    | true => have := b c; rw [h3 c e] at this; cases this
  uniq c d hc hd := h.uniq c d (h3 c hc) (h3 d hd)
  pend c hc := h2.trans (h.pend c (h3 c hc))
  le := h2 ▸ h.le

theorem retP_pendL {p : Step} {k : List Ret} : pendL (retP k) = true → pendL (some (p, k)) = true := by
  rcases k with - | ⟨- | - | - | -, k⟩ <;> simp [retP, pendL]
  all_goals exact fun h => Or.inr h

theorem lib_cstep {s : S} (h : LibI s) (ho : OnceI .lib s) {t : Tid} {c : Call} {rest : List Slot} {v : Data}
    {p : Step} {k : List Ret} (hp : s.pc c = some (p, k)) (hs : shape (some (p, k)) = true) :
    LibI (cstep s t c rest v k p) := by
  have quiet : ∀ {s' : S} {q : P}, s'.run .lib = s.run .lib → libs s'.tr = libs s.tr → s'.pc = upd s.pc c q →
      (pendL q = true → pendL (some (p, k)) = true) → LibI s' := by
    intro s' q h1 h2 h3 h4
    refine libI_same h h1 h2 fun d hd => ?_
    rw [h3] at hd
    by_cases e : d = c
    · rw [e, upd_self] at hd; rw [e, hp]; exact h4 hd
    · rwa [upd_ne e] at hd
  cases p with
  | test y =>
    simp only [cstep]
    split
    · exact quiet (q := retP k) (by simp) (by simp [libs]) (by simp) retP_pendL
    · exact quiet (q := some (.set y, k)) rfl rfl rfl id
  | set y =>
    cases y with
    | early => exact quiet (q := some (.e1, k)) (by simp [cstep]) (by simp [cstep, libs]) rfl id
    | normal =>
      exact quiet (q := some (.test .early, .n2 :: k)) (by simp [cstep]) (by simp [cstep, libs]) rfl
        (by simp [pendL])
    | lib =>
      have hf : s.run .lib = false := by
        cases hy : s.run .lib with
        | false => rfl
        | true => exact absurd (show betw .lib (s.pc c) by rw [hp]; rfl) ((ho.set hy).2 c)
      obtain ⟨a, b⟩ := h.none hf
      have hl : libs (cstep s t c rest v k (.set .lib)).tr = 0 := by
        simp only [libs] at a
        simp [cstep, libs, a]
      have only : ∀ d, pendL ((cstep s t c rest v k (.set .lib)).pc d) = true → d = c := by
        intro d hd
        by_cases e : d = c
        · exact e
        · simp only [cstep, goto_pc, log_pc] at hd
          rw [upd_ne e, b] at hd; cases hd
      exact ⟨fun r => by simp [cstep] at r, fun x y hx hy => by rw [only x hx, only y hy], fun _ _ => hl,
        by rw [hl]; exact Nat.zero_le _⟩
  | e1 => exact quiet (q := some (.e2, k)) rfl rfl rfl id
  | e2 => exact quiet (q := retP k) (by simp [cstep]) (by simp [cstep, libs]) (by simp [cstep]) retP_pendL
  | n2 => exact quiet (q := retP k) (by simp [cstep]) (by simp [cstep, libs]) (by simp [cstep]) retP_pendL
  | l2 =>
    have hc : pendL (s.pc c) = true := by rw [hp]; rfl
    have a := h.pend c hc
    have hl : libs (cstep s t c rest v k .l2).tr = 1 := by
      simp only [libs] at a
      simp [cstep, libs, a]
    have hk : pendL (some (.l3, k)) = false := by
      simp only [shape, List.contains_cons, List.contains_nil, Bool.or_false, Bool.or_eq_true, beq_iff_eq] at hs
      rcases hs with rfl | rfl <;> decide
    have nope : ∀ d, pendL ((cstep s t c rest v k .l2).pc d) = false :=
      upd_all (f := s.pc) (fun d hd => by
        cases e : pendL (s.pc d) with
        | false => rfl
        | true => exact absurd (h.uniq d c e hc) hd) hk
    refine ⟨fun r => ?_, fun x y hx => ?_, fun x hx => ?_, by rw [hl]; exact Nat.le_refl _⟩
    · have := (h.none r).2 c; rw [hc] at this; cases this
    · rw [nope] at hx; cases hx
    · rw [nope] at hx; cases hx
  | l3 => exact quiet (q := retP k) (by simp [cstep]) (by simp [cstep, libs]) (by simp [cstep]) retP_pendL
  | p1 =>
    simp only [cstep]
    split
    · exact quiet (q := some (.p2, k)) rfl rfl rfl id
    · split
      · exact quiet (q := retP k) (by simp) (by simp) (by simp) retP_pendL
      · exact quiet (q := some (.p3, k)) rfl rfl rfl id
  | p2 => exact quiet (q := some (.p3, k)) rfl (by simp [cstep, libs]) rfl id
  | p3 => exact quiet (q := some (.test .lib, .p4 :: k)) rfl rfl rfl (by simp [pendL])
  | p4 => exact quiet (q := some (.p5, k)) rfl (by simp [cstep, libs]) rfl id
  | p5 => exact quiet (q := retP k) (by simp [cstep]) (by simp [cstep, libs]) (by simp [cstep]) retP_pendL

theorem lib_enter {s : S} (h : LibI s) {t : Tid} {p : Step × List Ret} {f : Bool} {d : Data}
    (hp : pendL (some p) = false) : LibI (s.enter t p f d) := by
  refine libI_same h rfl rfl fun e he => ?_
  rw [enter_pc] at he
  by_cases k : e = s.nextC
  · rw [k, upd_self, hp] at he; cases he
  · rwa [upd_ne k] at he

theorem lib_inv {s : S} (hs : ReachA NoRace s) : LibI s := by
  induction hs with
  | init => exact ⟨fun _ => ⟨rfl, fun _ => rfl⟩, fun _ _ h => by simp [pendL] at h, fun _ _ => rfl, Nat.zero_le _⟩
  | @next s s' l hs _ hn ih =>
    have ho := once_inv (x := .lib) hs
    have hsh := shape_reach hs
    cases l with
    | go t v =>
      simp only [next] at hn
      split at hn
      · rename_i c rest ht
        split at hn
        · rename_i p k hp
          cases hn
          exact lib_cstep ih ho hp (hp ▸ hsh c)
        · cases hn
      · cases hn; exact libI_same ih rfl rfl fun _ h => h
      · cases hn
    | call t k =>
      simp only [next] at hn
      split at hn
      · cases hn; exact lib_enter ih (by cases k <;> rfl)
      · cases hn
    | interrupt t =>
      simp only [next] at hn
      split at hn
      · cases hn
      · cases hn; exact libI_same ih rfl rfl fun _ h => h
    | unwind t n =>
      simp only [next] at hn
      split at hn
      · cases hn
        refine libI_same ih rfl rfl fun d hd => ?_
        simp only at hd
        split at hd
        · cases hd
        · exact hd
      · cases hn
    | fork t v =>
      simp only [next] at hn
      split at hn
      · cases hn
        refine lib_enter ?_ rfl
        refine libI_same ih rfl (by simp [libs]) fun d hd => ?_
        simp only at hd
        split at hd
        · exact hd
        · cases hd
      · cases hn

/-! ### Calm executions -/

def waiting : P → Bool
  | some (.l3, _) | some (.p5, _) => true
  | _ => false

structure CalmI (s : S) : Prop where
  live : ∀ c, s.pc c ≠ none → some c ∈ s.th 0
  wait : ∀ f rest, s.th 0 = f :: rest → ∀ c, some c ∈ rest → waiting (s.pc c) = true
  nodup : ((s.th 0).filterMap id).Nodup
  old : ∀ c, some c ∈ s.th 0 → c < s.nextC

theorem ret_th {s : S} {t : Tid} {c : Call} {rest : List Slot} {k : List Ret} :
    (s.ret t c rest k).th t = s.th t ∨ retP k = none ∧ (s.ret t c rest k).th t = rest := by
  rcases k with - | ⟨- | - | - | -, k⟩
  · exact Or.inr ⟨rfl, by simp [S.ret, S.setTh]⟩
  all_goals exact Or.inl rfl

theorem cstep_calm {s : S} {t : Tid} {c : Call} {rest : List Slot} {v : Data} {p : Step} {k : List Ret} :
    (cstep s t c rest v k p).nextC = s.nextC ∧ ∃ q, (cstep s t c rest v k p).pc = upd s.pc c q ∧
      ((cstep s t c rest v k p).th t = s.th t ∨ q = none ∧ (cstep s t c rest v k p).th t = rest ∨
        waiting q = true ∧ (cstep s t c rest v k p).th t = none :: some c :: rest) := by
  cases p with
  | test x =>
    simp only [cstep]
    split
    · refine ⟨by simp, retP k, by simp, ?_⟩
      rcases ret_th (s := s.log (.skip x c)) (t := t) (c := c) (rest := rest) (k := k) with h | h
      · exact Or.inl h
      · exact Or.inr (Or.inl h)
    · exact ⟨rfl, _, rfl, Or.inl rfl⟩
  | set x => exact ⟨rfl, _, rfl, Or.inl rfl⟩
  | e1 => exact ⟨rfl, _, rfl, Or.inl rfl⟩
  | e2 =>
    refine ⟨by simp [cstep], retP k, by simp [cstep], ?_⟩
    rcases ret_th (s := { s.log (.fin .early c) with magic := true }) (t := t) (c := c) (rest := rest) (k := k) with h | h
    · exact Or.inl h
    · exact Or.inr (Or.inl h)
  | n2 =>
    refine ⟨by simp [cstep], retP k, by simp [cstep], ?_⟩
    rcases ret_th (s := s.log (.fin .normal c)) (t := t) (c := c) (rest := rest) (k := k) with h | h
    · exact Or.inl h
    · exact Or.inr (Or.inl h)
  | l2 => exact ⟨rfl, some (.l3, k), rfl, Or.inr (Or.inr ⟨rfl, by simp [cstep, S.setTh]⟩)⟩
  | l3 =>
    refine ⟨by simp [cstep], retP k, by simp [cstep], ?_⟩
    rcases ret_th (s := (s.log (.initLibraryRet c)).log (.fin .lib c)) (t := t) (c := c) (rest := rest) (k := k) with h | h
    · exact Or.inl h
    · exact Or.inr (Or.inl h)
  | p1 =>
    simp only [cstep]
    split
    · exact ⟨rfl, _, rfl, Or.inl rfl⟩
    · split
      · refine ⟨by simp, retP k, by simp, ?_⟩
        rcases ret_th (s := { s with called := true }) (t := t) (c := c) (rest := rest) (k := k) with h | h
        · exact Or.inl h
        · exact Or.inr (Or.inl h)
      · exact ⟨rfl, _, rfl, Or.inl rfl⟩
  | p2 => exact ⟨rfl, _, rfl, Or.inl rfl⟩
  | p3 => exact ⟨rfl, _, rfl, Or.inl rfl⟩
  | p4 => exact ⟨rfl, some (.p5, k), rfl, Or.inr (Or.inr ⟨rfl, by simp [cstep, S.setTh]⟩)⟩
  | p5 =>
    refine ⟨by simp [cstep], retP k, by simp [cstep], ?_⟩
    rcases ret_th (s := s.log (.data c v)) (t := t) (c := c) (rest := rest) (k := k) with h | h
    · exact Or.inl h
    · exact Or.inr (Or.inl h)

theorem mem_calls {l : List Slot} {c : Call} : c ∈ l.filterMap id ↔ some c ∈ l := by simp

theorem calm_enter {s : S} (h : CalmI s) {rest : List Slot} (ht : s.th 0 = none :: rest) {p : Step × List Ret}
    {f : Bool} {d : Data} : CalmI (s.enter 0 p f d) := by
  have hth : (s.enter 0 p f d).th 0 = some s.nextC :: none :: rest := by simp [S.enter, S.setTh, ht]
  have hne : ∀ c, some c ∈ rest → c ≠ s.nextC := fun c hc e =>
    absurd (h.old c (by rw [ht]; exact List.mem_cons_of_mem _ hc)) (by rw [e]; exact Nat.lt_irrefl _)
  refine ⟨fun c hc => ?_, fun g r hr c hc => ?_, ?_, fun c hc => ?_⟩
  · rw [hth]
    rw [enter_pc] at hc
    by_cases e : c = s.nextC
    · rw [e]; exact List.mem_cons_self
    · rw [upd_ne e] at hc
      have := h.live c hc
      rw [ht] at this
      exact List.mem_cons_of_mem _ this
  · rw [hth] at hr
    cases hr
    have hc : some c ∈ rest := by simpa using hc
    rw [enter_pc, upd_ne (hne c hc)]
    exact h.wait _ _ ht c hc
  · rw [hth]
    have := h.nodup
    rw [ht] at this
    simp only [List.filterMap_cons, id] at this ⊢
    exact List.nodup_cons.2 ⟨fun k => hne _ (mem_calls.1 k) rfl, this⟩
  · rw [hth] at hc
    show c < s.nextC + 1
    rcases List.mem_cons.1 hc with e | e
    · cases e; exact Nat.lt_succ_self _
    · exact Nat.lt_succ_of_lt (h.old c (by rw [ht]; exact e))

theorem calm_next {s s' : S} {l : Lbl} (h : CalmI s) (ha : Calm s l) (hn : next s l = some s') : CalmI s' := by
  cases l with
  | go t v =>
    cases ha
    simp only [next] at hn
    split at hn
    · rename_i c rest ht
      split at hn
      · rename_i p k hp
        cases hn
        obtain ⟨e1, q, e2, e3⟩ := cstep_calm (s := s) (t := 0) (c := c) (rest := rest) (v := v) (p := p) (k := k)
        have hnd := h.nodup
        rw [ht] at hnd
        simp only [List.filterMap_cons, id] at hnd
        obtain ⟨hcr, hnd'⟩ := List.nodup_cons.1 hnd
        have hne : ∀ d, some d ∈ rest → d ≠ c := fun d hd e => hcr (mem_calls.2 (e ▸ hd))
        have hw : ∀ d, some d ∈ rest → waiting (upd s.pc c q d) = true := fun d hd => by
          rw [upd_ne (hne d hd)]; exact h.wait _ _ ht d hd
        rcases e3 with e3 | ⟨e4, e3⟩ | ⟨e4, e3⟩
        · refine ⟨fun d hd => ?_, fun g r hr d hd => ?_, by rw [e3]; exact h.nodup, by rw [e1, e3]; exact h.old⟩
          · rw [e3]
            by_cases e : d = c
            · rw [e, ht]; exact List.mem_cons_self
            · rw [e2, upd_ne e] at hd; exact h.live d hd
          · rw [e3, ht] at hr
            cases hr
            rw [e2]; exact hw d hd
        · refine ⟨fun d hd => ?_, fun g r hr d hd => ?_, by rw [e3]; exact hnd', fun d hd => ?_⟩
          · rw [e3]
            by_cases e : d = c
            · rw [e2, e, upd_self, e4] at hd; exact absurd rfl hd
            · rw [e2, upd_ne e] at hd
              have := h.live d hd
              rw [ht] at this
              rcases List.mem_cons.1 this with k | k
              · cases k; exact absurd rfl e
              · exact k
          · rw [e3] at hr
            rw [e2]; exact hw d (by rw [hr]; exact List.mem_cons_of_mem _ hd)
          · rw [e1]; rw [e3] at hd
            exact h.old d (by rw [ht]; exact List.mem_cons_of_mem _ hd)
        · refine ⟨fun d hd => ?_, fun g r hr d hd => ?_, ?_, fun d hd => ?_⟩
          · rw [e3]
            by_cases e : d = c
            · rw [e]; exact List.mem_cons_of_mem _ List.mem_cons_self
            · rw [e2, upd_ne e] at hd
              have := h.live d hd
              rw [ht] at this
              exact List.mem_cons_of_mem _ this
          · rw [e3] at hr
            cases hr
            rw [e2]
            rcases List.mem_cons.1 hd with k | k
            · cases k; rw [upd_self]; exact e4
            · exact hw d k
          · rw [e3]; simpa only [List.filterMap_cons, id] using hnd
          · rw [e1]; rw [e3] at hd
            refine h.old d ?_
            rw [ht]
            simpa using hd
      · cases hn
    · rename_i f rest ht
      cases hn
      have hth : (s.setTh 0 (f :: rest)).th 0 = f :: rest := by simp [S.setTh]
      refine ⟨fun d hd => ?_, fun g r hr d hd => ?_, ?_, fun d hd => ?_⟩
      · have := h.live d hd
        rw [ht] at this
        rw [hth]
        simpa using this
      · rw [hth] at hr
        cases hr
        exact h.wait _ _ ht d (List.mem_cons_of_mem _ hd)
      · rw [hth]
        have := h.nodup
        rw [ht] at this
        simpa only [List.filterMap_cons, id] using this
      · rw [hth] at hd
        exact h.old d (by rw [ht]; exact List.mem_cons_of_mem _ hd)
    · cases hn
  | call t k =>
    cases ha
    simp only [next] at hn
    split at hn
    · rename_i rest ht
      cases hn
      exact calm_enter h ht
    · cases hn
  | interrupt t => exact ha.elim
  | unwind t n =>
    cases ha
    simp only [next] at hn
    split at hn
    · rename_i rest ht
      cases hn
      have hnd := h.nodup
      rw [ht, ← List.take_append_drop n (none :: rest), List.filterMap_append] at hnd
      have hdis : ∀ d, some d ∈ (none :: rest).drop n → some d ∉ (none :: rest).take n := fun d h1 h2 =>
        (List.nodup_append.1 hnd).2.2 d (mem_calls.2 h2) d (mem_calls.2 h1) rfl
      have hth : ∀ {f : Call → P}, ({ s.setTh 0 ((none :: rest).drop n) with pc := f } : S).th 0 =
          (none :: rest).drop n := by simp [S.setTh]
      refine ⟨fun d hd => ?_, fun g r hr d hd => ?_, ?_, fun d hd => ?_⟩
      · rw [hth]
        simp only at hd
        by_cases k : some d ∈ (none :: rest).take n
        · rw [if_pos k] at hd; exact absurd rfl hd
        · rw [if_neg k] at hd
          have := h.live d hd
          rw [ht, ← List.take_append_drop n (none :: rest)] at this
          exact (List.mem_append.1 this).resolve_left k
      · rw [hth] at hr
        have hm : some d ∈ (none :: rest).drop n := by rw [hr]; exact List.mem_cons_of_mem _ hd
        simp only
        rw [if_neg (hdis d hm)]
        refine h.wait _ _ ht d ?_
        have := List.mem_of_mem_drop hm
        simpa using this
      · rw [hth]
        exact (List.nodup_append.1 hnd).2.1
      · rw [hth] at hd
        exact h.old d (by rw [ht]; exact List.mem_of_mem_drop hd)
    · cases hn
  | fork t v =>
    cases ha
    simp only [next] at hn
    split at hn
    · rename_i rest ht
      cases hn
      refine calm_enter (rest := rest) ?_ (by simp)
      refine ⟨fun d hd => ?_, fun g r hr d hd => ?_, ?_, fun d hd => ?_⟩
      · simp only [if_true] at hd ⊢
        by_cases k : some d ∈ rest
        · exact List.mem_cons_of_mem _ k
        · rw [if_neg k] at hd; exact absurd rfl hd
      · simp only [if_true] at hr ⊢
        cases hr
        rw [if_pos hd]
        exact h.wait _ _ ht d hd
      · simp only [if_true]
        rw [← ht]; exact h.nodup
      · simp only [if_true] at hd
        exact h.old d (by rw [ht]; exact hd)
    · cases hn

theorem waiting_out {q : P} (hw : waiting q = true) (hs : shape q = true) :
    (∀ x, ¬ betw x q) ∧ inE q = false ∧ inN q = false := by
  match q, hw with
  | some (.l3, k), _ =>
    simp only [shape, List.contains_cons, List.contains_nil, Bool.or_false, Bool.or_eq_true, beq_iff_eq] at hs
    rcases hs with rfl | rfl <;> exact ⟨fun _ => id, by decide, by decide⟩
  | some (.p5, k), _ =>
    have hk : k = [] := by simpa [shape] using hs
    subst hk
    exact ⟨fun _ => id, by decide, by decide⟩

/-- In such an execution, when the innermost frame is a call, the others wait for a callback. -/
theorem calm_out {s : S} (h : CalmI s) (hsh : ∀ c, shape (s.pc c) = true) {f : Slot} {rest : List Slot}
    (ht : s.th 0 = f :: rest) {d : Call} (hd : some d ≠ f) :
    (∀ x, ¬ betw x (s.pc d)) ∧ inE (s.pc d) = false ∧ inN (s.pc d) = false := by
  cases e : s.pc d with
  | none => exact ⟨fun _ => id, rfl, rfl⟩
  | some a =>
    have := h.live d (by rw [e]; nofun)
    rw [ht] at this
    rw [← e]
    exact waiting_out (h.wait _ _ ht d ((List.mem_cons.1 this).resolve_left hd)) (hsh d)

theorem calm_step {s : S} {l : Lbl} (h : CalmI s) (hsh : ∀ c, shape (s.pc c) = true) (ha : Calm s l) {s' : S}
    (hn : next s l = some s') : NoRace s l ∧ Serial s l := by
  constructor
  · rintro t v c x d rfl ⟨rest, ht⟩ ⟨k, hc⟩ hb
    cases ha
    have hb := between_iff.1 hb
    by_cases e : d = c
    · rw [e, hc] at hb; exact hb
    · exact (calm_out h hsh ht fun k => e (by cases k; rfl)).1 x hb
  · have out : ∀ {d x}, x ≠ Guard.lib → inE (s.pc d) = false ∧ inN (s.pc d) = false → ¬ Inside s d x := by
      intro d x hx hd hi
      cases x with
      | lib => exact hx rfl
      | early => have := inE_iff.2 hi; rw [hd.1] at this; cases this
      | normal => have := inN_iff.2 hi; rw [hd.2] at this; cases this
    have top : ∀ {rest}, s.th 0 = none :: rest → ∀ {d x}, x ≠ Guard.lib → ¬ Inside s d x := by
      intro rest ht d x hx
      exact out hx (calm_out h hsh ht nofun).2
    intro x hx
    refine ⟨?_, ?_, ?_⟩
    · rintro t v c d rfl ⟨rest, ht⟩ ⟨k, hc⟩ hi
      cases ha
      by_cases e : d = c
      · subst e
        cases x with
        | lib => exact hx rfl
        | early => have := inE_iff.2 hi; rw [hc] at this; cases this
        | normal =>
          have := inN_iff.2 hi
          have hs := hsh d
          rw [hc] at this hs
          simp only [shape, List.contains_cons, List.contains_nil, Bool.or_false, Bool.or_eq_true, beq_iff_eq] at hs
          rcases hs with rfl | rfl | rfl | rfl <;> revert this <;> decide
      · exact out hx (calm_out h hsh ht fun k => e (by cases k; rfl)).2 hi
    · rintro t n d rfl _
      cases ha
      simp only [next] at hn
      split at hn
      · rename_i rest ht; exact top ht hx
      · cases hn
    · rintro t v d rfl _
      cases ha
      simp only [next] at hn
      split at hn
      · rename_i rest ht; exact top ht hx
      · cases hn

theorem calm_reach {s : S} (hs : ReachA Calm s) : ReachA NoRace s ∧ ReachA Serial s ∧ CalmI s := by
  induction hs with
  | init =>
    refine ⟨.init, .init, fun c hc => absurd rfl hc, fun f r hr c hc => ?_, by simp, fun c hc => ?_⟩
    · cases hr; cases hc
    · simp at hc
  | next hs ha hn ih =>
    obtain ⟨i1, i2, i3⟩ := ih
    obtain ⟨a1, a2⟩ := calm_step i3 (shape_reach hs) ha hn
    exact ⟨i1.next a1 hn, i2.next a2 hn, calm_next i3 ha hn⟩

end Libmonitor.Once
