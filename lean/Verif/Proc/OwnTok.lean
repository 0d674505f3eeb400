import Verif.Proc.OwnTsd
/-!
# No record is used twice, in clean executions
-/

namespace Libmonitor.Proc

/-- At most one of the threads and the pool holds a record. -/
def Ex (K : Tid → Nat) (a : Nat) : Prop :=
  (∀ u, K u + a ≤ 1) ∧ ∀ u w, u ≠ w → K u = 0 ∨ K w = 0

theorem ex_set {K K' : Tid → Nat} {a a' : Nat} {t : Tid} (h : Ex K a)
    (hne : ∀ u, u ≠ t → K' u = K u) (ht : K' t + a' ≤ K t + a) : Ex K' a' := by
  obtain ⟨h1, h2⟩ := h
  refine ⟨fun u => ?_, fun u w huw => ?_⟩
  · by_cases e : u = t
    · subst e; have := h1 u; omega
    · rw [hne u e]
      have := h1 u
      rcases h2 u t e with h | h
      · have := h1 t; omega
      · have := h1 t; omega
  · by_cases e : u = t
    · subst e
      rw [hne w (Ne.symm huw)]
      have := h1 w
      rcases h2 u w huw with h | h
      · omega
      · exact Or.inr h
    · rw [hne u e]
      by_cases e2 : w = t
      · subst e2
        have := h1 u
        rcases h2 u w huw with h | h
        · exact Or.inl h
        · omega
      · rw [hne w e2]; exact h2 u w huw

theorem ex_spawn {K K' : Tid → Nat} {a a' : Nat} {t n : Tid} (h : Ex K a) (htn : n ≠ t)
    (h0 : K n = 0) (hne : ∀ u, u ≠ t → u ≠ n → K' u = K u)
    (ht : K' t + K' n + a' ≤ K t + a) : Ex K' a' := by
  have h1 : Ex (fun u => if u = t then K' t else K u) (K' n + a') :=
    ex_set (t := t) h (fun u hu => if_neg hu) (by simp only [if_true]; omega)
  refine ex_set (t := n) h1 (fun u hu => ?_) ?_
  · by_cases e : u = t
    · simp only [if_pos e]; rw [e]
    · simp only [if_neg e]; exact hne u e hu
  · simp only [if_neg htn]; omega

/-- What the stack of `u` holds of the record `n`. -/
def stk (tok : NodeId → Bool → Frame → Nat) (n : NodeId) (g : G) (u : Tid) (l : List Frame) : Nat :=
  toks (tok n (decide (u = mainOf g.tr))) l

theorem excl_inv {tok : NodeId → Bool → Frame → Nat} {used : G → NodeId → Nat} {n : NodeId}
    (hpush : ∀ b h, h.pushable = true → tok n b h = 0)
    (hcl : ∀ b f m, f.armed = some m → tok n b (.cl0 m) ≤ tok n b f)
    (hlive : ∀ g u f, BaseF g u f → tok n (decide (u = mainOf g.tr)) f ≠ 0 →
      g.hasUsed = true ∧ born g.tr = false)
    (hidle : ∀ g, BaseG g → g.hasUsed = false → used g n ≤ 1)
    (hdead : ∀ g : G, used { g with dead := true } n = used g n)
    (hpc2 : ∀ b st ar, tok n b (.pc2 st ar) = 0)
    (hpc1 : ∀ g : G, used { g with hasUsed := true } n = used g n)
    (hgo : ∀ {s : S} {t : Tid} {f : Frame} {rest : List Frame} {ok : Bool} {v : Nat} {g' : G}
      {nx : Next} {sp : Option Frame}, ReachA Clean s → Clean s (.step t (.go ok v)) →
      s.th t = f :: rest → s.g.hasUsed = true → born s.g.tr = false →
      BaseF s.g t f → fstep s.g t ok v f = some (g', nx, sp) →
      nx.toks (tok n (decide (t = mainOf s.g.tr))) f +
        (match sp with | some f0 => tok n false f0 | none => 0) + used g' n ≤
      tok n (decide (t = mainOf s.g.tr)) f + used s.g n)
    {s : S} (hs : ReachA Clean s) (hu : s.g.hasUsed = true) (hb : born s.g.tr = false) :
    Ex (fun u => stk tok n s.g u (s.th u)) (used s.g n) := by
  have hunw : ∀ b l, toks (tok n b) (unwound l) ≤ toks (tok n b) l := by
    intro b l
    rcases unwound_cases l with h | ⟨f, m, hf, ha, h⟩ <;> rw [h]
    · rw [toks_cons, hpush b _ rfl]; simp [toks_nil]
    · rw [toks_cons, toks_cons, hpush b .tdtor rfl, toks_nil]
      have := hcl b f m ha
      obtain ⟨x, y, e⟩ := List.append_of_mem hf
      rw [e, toks_append, toks_cons]
      omega
  induction hs with
  | init => cases hu
  | @next s s' l hr hA hn ih =>
    obtain ⟨bG, bF⟩ := base_inv hr
    have hm := move_of_next hn
    have push : ∀ {t : Tid} {f : Frame} {rest pre : List Frame}, s.th t = f :: rest →
        (∀ h ∈ pre, h.pushable = true) → s.g.hasUsed = true → born s.g.tr = false →
        Ex (fun u => stk tok n s.g u (setTh s.th t (pre ++ f :: rest) u)) (used s.g n) := by
      intro t f rest pre ht hp hu hb
      refine ex_set (t := t) (ih hu hb) (fun u hne => ?_) ?_
      · simp only [setTh_ne _ _ hne]
      · simp only [setTh_self, stk, toks_append, ht]
        rw [toks_zero (l := pre) (fun f hf => hpush _ f (hp f hf))]; omega
    cases hm with
    | @go t f rest ok v r hd ht hf =>
      obtain ⟨g', nx, sp⟩ := r
      have hft : f ∈ s.th t := by rw [ht]; exact List.mem_cons_self
      have hBf := bF t f hft
      have e1 : (applyRes s t rest (g', nx, sp)).g.hasUsed = g'.hasUsed := by
        rw [applyRes_g]; split <;> rfl
      have e2 : (applyRes s t rest (g', nx, sp)).g.tr = g'.tr := by
        rw [applyRes_g]; split <;> rfl
      have e3 : used (applyRes s t rest (g', nx, sp)).g n = used g' n := by
        rw [applyRes_g]; split
        · exact hdead g'
        · rfl
      rw [e1] at hu; rw [e2] at hb; rw [e3]
      have em := mainOf_fstep hf
      have estk : ∀ u l, stk tok n (applyRes s t rest (g', nx, sp)).g u l = stk tok n s.g u l := by
        intro u l
        unfold stk; rw [e2, em]
      simp only [estk]
      have hfr := fresh_inv hr s.g.nextTid (Nat.le_refl _)
      have htn : s.g.nextTid ≠ t := by
        intro e'; rw [← e', hfr] at ht; cases ht
      cases hb0 : born s.g.tr with
      | true =>
        obtain ⟨b1, b2, b3, b4⟩ := birth_step hr ht hb0
        exfalso
        clear ih push estk e1 e2 e3 hn hBf hft ht
        cases f <;> first | (simp [Frame.resetting] at b2; done) | skip
        · fstep_cases hf <;> (rw [hb0] at hb; cases hb)
        · fstep_cases hf
          simp only [G.emit, G.upd, resetList] at hu
          split at hu
          · cases hu
          · rename_i h2; exact absurd hu h2
        · fstep_cases hf
          simp only [G.emit, resetList] at hu
          split at hu
          · cases hu
          · rename_i h2; exact absurd hu h2
      | false =>
        cases hu0 : s.g.hasUsed with
        | true =>
          have ih := ih hu0 hb0
          have key := hgo hr hA ht hu0 hb0 hBf hf
          rcases fstep_spawn hf with ⟨rfl, e⟩ | ⟨f0, l, rfl, e, rfl⟩
          · cases nx with
            | go l =>
              refine ex_set (t := t) ih (fun u hne => ?_) ?_
              · show stk tok n s.g u (setTh s.th t (l ++ rest) u) = _
                rw [setTh_ne _ _ hne]
              · show stk tok n s.g t (setTh s.th t (l ++ rest) t) + _ ≤ _
                rw [setTh_self, ht]
                simp only [stk, toks_append, toks_cons]
                simp only [Next.toks] at key
                omega
            | unwind =>
              refine ex_set (t := t) ih (fun u hne => ?_) ?_
              · show stk tok n s.g u (setTh s.th t (unwound rest) u) = _
                rw [setTh_ne _ _ hne]
              · show stk tok n s.g t (setTh s.th t (unwound rest) t) + _ ≤ _
                rw [setTh_self, ht]
                simp only [stk, toks_cons]
                simp only [Next.toks] at key
                have := hunw (decide (t = mainOf s.g.tr)) rest
                omega
            | die =>
              refine ex_set (t := t) ih (fun u hne => rfl) ?_
              show stk tok n s.g t (s.th t) + _ ≤ _
              simp only [Next.toks] at key
              omega
          · have hz : toks (tok n (decide (s.g.nextTid = mainOf s.g.tr))) (s.th s.g.nextTid) = 0 := by
              rw [hfr]; rfl
            have hmn : decide (s.g.nextTid = mainOf s.g.tr) = false := by
              have := bG.1
              exact decide_eq_false (by omega)
            refine ex_spawn (t := t) (n := s.g.nextTid) ih htn hz (fun u hne hne2 => ?_) ?_
            · show stk tok n s.g u (setTh (setTh s.th s.g.nextTid [f0]) t (l ++ rest) u) = _
              rw [setTh_ne _ _ hne, setTh_ne _ _ hne2]
            · show stk tok n s.g t (setTh (setTh s.th s.g.nextTid [f0]) t (l ++ rest) t) +
                stk tok n s.g s.g.nextTid
                  (setTh (setTh s.th s.g.nextTid [f0]) t (l ++ rest) s.g.nextTid) + _ ≤ _
              rw [setTh_self, setTh_ne _ _ htn, setTh_self, ht]
              simp only [stk, toks_append, toks_cons, toks_nil, hmn]
              simp only [Next.toks] at key
              omega
        | false =>
          have hz : ∀ u, stk tok n s.g u (s.th u) = 0 := by
            intro u
            refine toks_zero (fun f hf => ?_)
            by_cases e : tok n (decide (u = mainOf s.g.tr)) f = 0
            · exact e
            · rw [(hlive _ _ _ (bF u f hf) e).1] at hu0; cases hu0
          have hpc : f.isPc1 = true := by
            have hres : f.resetting = false := by
              cases hc : f.resetting with
              | false => rfl
              | true => rw [hBf.2.1 hc] at hb0; cases hb0
            clear ih push estk e1 e2 e3 hn hBf hft ht hz
            cases f <;> first
            | rfl
            | (fstep_cases hf <;> first | (rw [hu0] at hu; cases hu) | (simp [listInit, G.emit, G.upd, hu0] at hu; done) | (cases hres))
          cases f <;> first | (cases hpc; done) | skip
          rename_i st ar
          fstep_cases hf
          have hr0 : toks (tok n (decide (t = mainOf s.g.tr))) rest = 0 := by
            have := hz t
            rw [stk, ht, toks_cons] at this; omega
          have h1 := hidle _ bG hu0
          have hz' : ∀ u, stk tok n s.g u (setTh s.th t ([.pc2 st ar] ++ rest) u) = 0 := by
            intro u
            by_cases e : u = t
            · subst e
              rw [setTh_self, stk, toks_append, toks_cons, hpc2, toks_nil, hr0]
            · rw [setTh_ne _ _ e]; exact hz u
          rw [hpc1]
          refine ⟨fun u => ?_, fun u w _ => Or.inl (hz' u)⟩
          show stk tok n s.g u (setTh s.th t ([.pc2 st ar] ++ rest) u) + _ ≤ 1
          rw [hz' u]; omega
    | @call t f rest a hd ht hf => exact push ht (fun h hh => api_pushable hh) hu hb
    | @unwind t f rest hd ht hf =>
      refine ex_set (t := t) (ih hu hb) (fun u hne => ?_) ?_
      · simp only [setTh_ne _ _ hne]
      · simp only [setTh_self, stk, ht]
        have := hunw (decide (t = mainOf s.g.tr)) (f :: rest)
        omega
    | @deliver t f rest hd ht hon hh => exact push (pre := [.h0]) ht (by simp [Frame.pushable]) hu hb
    | @interrupt t f rest hd ht => exact push (pre := [.app]) ht (by simp [Frame.pushable]) hu hb
    | @fork t c d rest hd ht => cases hb
    | @realFork t rest hd ht => cases hb

/-- The record of the thread that a call of pthread_create is about to create. -/
def Frame.newRec : Frame → Option NodeId
  | .pc6 _ _ n .. | .pcStack _ _ n .. | .pc7 _ _ n .. => some n
  | _ => none

/-- A created thread that is not on the list yet. -/
def Frame.unlinked : Frame → Option NodeId
  | .bt0 n | .bt1 n | .bt2 n => some n
  | _ => none

/-- The record has not been taken from its array. -/
def unalloc (arr pos nArr : Nat) : NodeId → Bool
  | .main => false
  | .slot a i => decide ((a = arr ∧ pos ≤ i) ∨ nArr < a)

def one (p : Prop) [Decidable p] : Nat := if p then 1 else 0

theorem one_pos {p : Prop} [Decidable p] (h : p) : one p = 1 := if_pos h
theorem one_neg {p : Prop} [Decidable p] (h : ¬p) : one p = 0 := if_neg h
theorem one_le {p : Prop} [Decidable p] : one p ≤ 1 := by unfold one; split <;> omega

def tokRec (n : NodeId) (b : Bool) (f : Frame) : Nat :=
  one (f.newRec = some n) + one (b = false ∧ f.thr = some n)

def availRec (g : G) (n : NodeId) : Nat :=
  g.free.count n + one (unalloc g.arr g.pos g.nArr n = true)

def tokNew (n : NodeId) (_ : Bool) (f : Frame) : Nat :=
  one (f.newRec = some n) + one (f.unlinked = some n)

def availList (g : G) (n : NodeId) : Nat := availRec g n + g.list.count n

theorem arr_inv {A : S → Lbl → Prop} {s : S} (hs : ReachA A s) : s.g.arr ≤ s.g.nArr := by
  refine glob_inv (GI := fun g => g.arr ≤ g.nArr) (Nat.le_refl _) ?_ (fun _ h => h)
    (fun _ h => h) hs
  intro s t f rest ok v g' nx sp _ _ _ hG h
  cases f <;> fstep_cases h <;> first
    | exact hG
    | (simp only [listInit, G.emit, G.upd, resetList_arr, resetList_nArr]; exact hG)
    | skip
  rename_i ha
  unfold alloc at ha
  (repeat' split at ha) <;> cases ha <;> first | exact hG | exact Nat.le_refl _

theorem alloc_avail {g : G} {ok : Bool} {a : Got} (hle : g.arr ≤ g.nArr) (h : alloc g ok = some a)
    (n : NodeId) :
    one (a.n = n) + (a.free.count n + one (unalloc a.arr a.pos a.nArr n = true)) ≤ availRec g n := by
  unfold availRec
  unfold alloc at h
  split at h
  · rename_i m fs hf
    injection h with h; subst h
    rw [hf, List.count_cons]
    by_cases e : m = n
    · subst e; simp [one]; omega
    · rw [one_neg e]; simp [e]
  · rename_i hf
    have key : ∀ {p q r : Prop} [Decidable p] [Decidable q] [Decidable r], (p → r) → (q → r) →
        ¬(p ∧ q) → one p + one q ≤ one r := by
      intro p q r _ _ _ h1 h2 h3
      by_cases hp : p
      · rw [one_neg (p := q) (fun hq => h3 ⟨hp, hq⟩), one_pos (h1 hp)]; simp [one_le]
      · rw [one_neg hp]
        by_cases hq : q
        · rw [one_pos (h2 hq), one_pos hq]; omega
        · rw [one_neg hq]; omega
    split at h
    · injection h with h; subst h
      rw [hf]
      simp only [List.count_nil, Nat.zero_add]
      refine key ?_ ?_ ?_
      · intro e; subst e; simp [unalloc]
      · cases n with
        | main => simp [unalloc]
        | slot x i => simp only [unalloc, decide_eq_true_eq]; omega
      · rintro ⟨e, h2⟩
        subst e
        simp only [unalloc, decide_eq_true_eq] at h2; omega
    · split at h
      · injection h with h; subst h
        rw [hf]
        simp only [List.count_nil, Nat.zero_add]
        refine key ?_ ?_ ?_
        · intro e; subst e; simp only [unalloc, decide_eq_true_eq]; omega
        · cases n with
          | main => simp [unalloc]
          | slot x i => simp only [unalloc, decide_eq_true_eq]; omega
        · rintro ⟨e, h2⟩
          subst e
          simp only [unalloc, decide_eq_true_eq] at h2; omega
      · cases h

theorem rec_excl {s : S} (hs : ReachA Clean s) {n : NodeId} (hn : n ≠ .main)
    (hu : s.g.hasUsed = true) (hb : born s.g.tr = false) :
    Ex (fun u => stk tokRec n s.g u (s.th u)) (availRec s.g n) := by
  refine excl_inv (tok := tokRec) (used := availRec) (n := n) ?_ ?_ ?_ ?_ (fun _ => rfl) ?_
    (fun _ => rfl) ?_ hs hu hb
  · intro b h hp
    unfold tokRec
    rw [one_neg, one_neg] <;> (cases h <;> simp [Frame.pushable, Frame.newRec, Frame.thr] at hp ⊢)
  · intro b f m ha
    have := (thr_of_armed ha).1
    unfold tokRec
    rw [this, one_neg (p := (Frame.cl0 m).newRec = some n) (by simp [Frame.newRec])]
    show _ + one (b = false ∧ some m = some n) ≤ _
    omega
  · intro g u f hB ht
    unfold tokRec at ht
    by_cases h1 : f.newRec = some n
    · have hm : f.making = true ∧ f.isPc1 = false := by
        cases f <;> first | (cases h1; done) | exact ⟨rfl, rfl⟩
      have := hB.2.2.1 hm.1
      exact ⟨this.1.resolve_left (by rw [hm.2]; simp), this.2⟩
    · rw [one_neg h1] at ht
      by_cases h2 : decide (u = mainOf g.tr) = false ∧ f.thr = some n
      · exact hB.1 (of_decide_eq_false h2.1)
      · rw [one_neg h2] at ht; omega
  · intro g hG hu
    unfold availRec
    rw [(hG.2 hu).2.1]
    simp [one_le]
  · intro b st ar; simp [tokRec, one, Frame.newRec, Frame.thr]
  · intro s t f rest ok v g' nx sp hr hA ht hu hb hB h
    have harr := arr_inv hr
    have hres : f.resetting = false := by
      cases hc : f.resetting with
      | false => rfl
      | true => rw [hB.2.1 hc] at hb; cases hb
    have hthr := hB.2.2.2
    generalize hbb : decide (t = mainOf s.g.tr) = b
    have hthr : f.thr.isSome = true → b = false ∨ f.isBtApp = true := by
      intro h
      refine (hthr h).imp (fun e => ?_) id
      rw [← hbb]; exact decide_eq_false e
    clear hB hA hr ht hbb
    cases f <;> first | (simp [Frame.resetting] at hres; done) | skip
    all_goals fstep_cases h
    all_goals try (
      refine Nat.add_le_add ?_ (Nat.le_refl (availRec s.g n))
      simp [Next.toks, toks, tokRec, Frame.newRec, Frame.thr, one]; done)
    · rename_i e; subst e
      refine Nat.add_le_add ?_ (Nat.le_refl (availRec s.g n))
      simp [Next.toks, toks, tokRec, Frame.newRec, Frame.thr, one]
    · rename_i m _ _ _
      have hb0 : b = false := (hthr rfl).resolve_right (by simp [Frame.isBtApp])
      show 0 + 0 + ((m :: s.g.free).count n + one (unalloc s.g.arr s.g.pos s.g.nArr n = true)) ≤
        (one (none = some n) + one (b = false ∧ some m = some n)) + availRec s.g n
      rw [List.count_cons]
      unfold availRec
      by_cases e : m = n
      · subst e; rw [one_pos (p := b = false ∧ some m = some m) ⟨hb0, rfl⟩]; simp [one]; omega
      · simp [one, e]
    · rename_i a ha
      have := alloc_avail harr ha n
      show one (some a.n = some n) + one (b = false ∧ none = some n) + 0 + 0 +
        (a.free.count n + one (unalloc a.arr a.pos a.nArr n = true)) ≤
        (one (none = some n) + one (b = false ∧ none = some n)) + availRec s.g n
      simp [one] at this ⊢
      exact this

theorem new_excl {s : S} (hs : ReachA Clean s) {n : NodeId} (hn : n ≠ .main)
    (hu : s.g.hasUsed = true) (hb : born s.g.tr = false) :
    Ex (fun u => stk tokNew n s.g u (s.th u)) (availList s.g n) := by
  refine excl_inv (tok := tokNew) (used := availList) (n := n) ?_ ?_ ?_ ?_ (fun _ => rfl) ?_
    (fun _ => rfl) ?_ hs hu hb
  · intro b h hp
    unfold tokNew
    rw [one_neg, one_neg] <;> (cases h <;> simp [Frame.pushable, Frame.newRec, Frame.unlinked] at hp ⊢)
  · intro b f m ha
    unfold tokNew
    simp [one, Frame.newRec, Frame.unlinked]
  · intro g u f hB ht
    unfold tokNew at ht
    by_cases h1 : f.newRec = some n
    · have hm : f.making = true ∧ f.isPc1 = false := by
        cases f <;> first | (cases h1; done) | exact ⟨rfl, rfl⟩
      have := hB.2.2.1 hm.1
      exact ⟨this.1.resolve_left (by rw [hm.2]; simp), this.2⟩
    · rw [one_neg h1] at ht
      by_cases h2 : f.unlinked = some n
      · have h3 : f.thr.isSome = true ∧ f.isBtApp = false := by
          cases f <;> first | (cases h2; done) | exact ⟨rfl, rfl⟩
        exact hB.1 ((hB.2.2.2 h3.1).resolve_right (by rw [h3.2]; simp))
      · rw [one_neg h2] at ht; omega
  · intro g hG hu
    obtain ⟨h1, h2, _⟩ := hG.2 hu
    unfold availList availRec
    have : g.list.count n = 0 := List.count_eq_zero.2 (fun h => hn (h1 n h))
    rw [h2, this]
    simp [one_le]
  · intro b st ar; simp [tokNew, one, Frame.newRec, Frame.unlinked]
  · intro s t f rest ok v g' nx sp hr hA ht hu hb hB h
    have harr := arr_inv hr
    have hres : f.resetting = false := by
      cases hc : f.resetting with
      | false => rfl
      | true => rw [hB.2.1 hc] at hb; cases hb
    generalize decide (t = mainOf s.g.tr) = b
    clear hB hA hr ht
    cases f <;> first | (simp [Frame.resetting] at hres; done) | skip
    all_goals fstep_cases h
    all_goals try (
      refine Nat.add_le_add ?_ (Nat.le_refl (availList s.g n))
      simp [Next.toks, toks, tokNew, Frame.newRec, Frame.unlinked, one]; done)
    · show 0 + 0 + (availRec s.g n + (NodeId.main :: s.g.list).count n) ≤ 0 + 0 + availList s.g n
      rw [List.count_cons]
      unfold availList
      simp [Ne.symm hn]
    · rename_i m _ hmem
      show 0 + 0 + ((m :: s.g.free).count n + one (unalloc s.g.arr s.g.pos s.g.nArr n = true) +
        (s.g.list.erase m).count n) ≤ 0 + 0 + availList s.g n
      unfold availList availRec
      rw [List.count_cons]
      by_cases e : m = n
      · subst e
        rw [List.count_erase_self]
        have := List.count_pos_iff.2 hmem
        simp; omega
      · rw [List.count_erase_of_ne (Ne.symm e)]
        simp [e]
    · rename_i m _ _
      show 0 + 0 + (availRec s.g n + (m :: s.g.list).count n) ≤
        (one (none = some n) + one (some m = some n)) + availList s.g n
      unfold availList
      rw [List.count_cons]
      by_cases e : m = n
      · subst e; simp [one]; omega
      · simp [one, e]
    · rename_i a ha
      have := alloc_avail harr ha n
      show one (some a.n = some n) + one (none = some n) + 0 + 0 +
        (a.free.count n + one (unalloc a.arr a.pos a.nArr n = true) + s.g.list.count n) ≤
        (one (none = some n) + one (none = some n)) + (availRec s.g n + s.g.list.count n)
      simp [one] at this ⊢
      omega
    all_goals skip

end Libmonitor.Proc
