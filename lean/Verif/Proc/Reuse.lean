import Verif.Proc.Ended
import Verif.Proc.SpecReuse
/-!
# Thread records are used again: lemmas
-/

namespace Libmonitor.Proc

theorem Exec.reach {A : S → Lbl → Prop} {B : S → List Nat → List Tid → Prop} {s : S} {M : List Nat}
    {R : List Tid} (h : Exec A B s M R) : ReachA A s := by
  induction h with
  | init => exact .init
  | next _ hA hn _ ih => exact .next ih hA hn

theorem Exec.mono {A A' : S → Lbl → Prop} {B B' : S → List Nat → List Tid → Prop} {s : S}
    {M : List Nat} {R : List Tid} (hA : ∀ s l, A s l → A' s l)
    (hB : ∀ s M R, Exec A B s M R → B s M R → B' s M R)
    (h : Exec A B s M R) : Exec A' B' s M R := by
  induction h with
  | init hb => exact .init (hB _ _ _ (.init hb) hb)
  | next hr ha hn hb ih => exact .next ih (hA _ _ ha) hn (hB _ _ _ (.next hr ha hn hb) hb)

/-- Frames that only a new child has. -/
def Frame.newborn : Frame → Bool
  | .bp0 b _ => b
  | .bpReset _ | .rfReset => true
  | _ => false

/-- Frames of calls that came after the initialisation of the lists. -/
def Frame.used : Frame → Bool
  | .pc2 .. | .pc3 .. | .pc4 .. | .pcSup0 .. | .pcSup1 .. | .pcSup .. | .pc5 .. | .pcPre .. | .mk0 ..
  | .mk1 .. | .pc6 .. | .pcStack .. | .pc7 .. => true
  | .bt0 _ | .bt1 _ | .bt2 _ | .bt3 _ | .btInit _ | .bt4 _ | .bt5 _ | .btApp _ | .cl0 _ => true
  | .fin0 _ .cleanup | .finCb _ .cleanup _ | .ul0 _ | .ul1 _ => true
  | _ => false

theorem used_keep {g g' : G} {t : Tid} {ok : Bool} {v : Nat} {f : Frame} {nx : Next}
    {sp : Option Frame} (h : fstep g t ok v f = some (g', nx, sp)) (h1 : f.newborn = false)
    (hu : g.hasUsed = true) : g'.hasUsed = true := by
  cases f <;> fstep_cases h <;> first
    | exact hu
    | rfl
    | (simp [Frame.newborn] at h1; done)

theorem stay_free {g : G} {f : Frame} (h1 : f.newborn = false) (h2 : f.used = false) :
    f.newborn = false ∧ (f.used = true → g.hasUsed = true) :=
  ⟨h1, fun h => by rw [h2] at h; cases h⟩

theorem stay_frames {s : S} (hs : ReachA Stay s) {u : Tid} {f : Frame} (hm : f ∈ s.th u) :
    f.newborn = false ∧ (f.used = true → s.g.hasUsed = true) := by
  refine (frames_invA (A := Stay) (GI := fun _ => True)
    (FI := fun g _ f => f.newborn = false ∧ (f.used = true → g.hasUsed = true)) trivial
    (stay_free rfl rfl) ?_ (fun _ h => h) (fun _ _ _ h => h) ?_ ?_ ?_ ?_ hs).2 u f hm
  · intro s t f rest ok v g' nx sp hr hA ht _ hF h
    have hft : f ∈ s.th t := by rw [ht]; exact List.mem_cons_self
    obtain ⟨h1, h2⟩ := hF t f hft
    have hk := used_keep h h1
    refine ⟨trivial, fun u a ha _ => ⟨(hF u a ha).1, fun e => hk ((hF u a ha).2 e)⟩, ?_, ?_, ?_, ?_⟩
    · intro _; exact ⟨h1, fun e => hk (h2 e)⟩
    · intro l e a ha
      clear hF ht hft
      cases f <;> fstep_cases h <;> cases e <;>
        simp only [List.mem_cons, List.not_mem_nil, or_false] at ha <;>
        (try (rcases ha with ha | ha)) <;> (try subst ha) <;> first
        | exact stay_free rfl rfl
        | exact ⟨rfl, fun _ => hk (h2 rfl)⟩
        | exact ⟨rfl, fun _ => rfl⟩
        | (cases ha; done)
        | (simp [Frame.newborn] at h1; done)
        | (subst_vars; exact ⟨rfl, fun _ => hk (h2 rfl)⟩)
        | (split at ha <;> simp only [List.mem_cons, List.not_mem_nil, or_false] at ha; subst_vars; exact ⟨rfl, fun _ => hk (h2 rfl)⟩)
        | (subst_vars; simp [Frame.newborn] at h1; done)
        | (refine ⟨rfl, fun _ => ?_⟩; assumption)
        | (rename_i src; cases src <;> first | exact stay_free rfl rfl | exact ⟨rfl, fun _ => hk (h2 rfl)⟩)
    · intro a e
      clear hF ht hft
      cases f <;> fstep_cases h <;> cases e <;> first
        | exact stay_free rfl rfl
        | exact ⟨rfl, fun _ => hk (h2 rfl)⟩
    · intro e a ha
      rcases unwound_cases rest with e | ⟨f', n, hf', harm, e⟩ <;> rw [e] at ha <;> simp at ha
      · subst ha; exact stay_free rfl rfl
      · rcases ha with ha | ha <;> subst ha
        · have := hF t f' (by rw [ht]; exact List.mem_cons_of_mem _ hf')
          refine ⟨rfl, fun _ => hk (this.2 ?_)⟩
          cases f' <;> first | rfl | (cases harm; done)
        · exact stay_free rfl rfl
  · intro s t i a _ _ _ _ _ _ _ hp hnt
    clear hnt
    cases a <;> first
      | exact stay_free rfl rfl
      | (simp [Frame.pushable] at hp; done)
      | (rename_i b d
         cases b <;> first | exact stay_free rfl rfl | (simp [Frame.pushable] at hp; done))
  · intro s t _ _ _ _ hF a ha
    rcases unwound_cases (s.th t) with e | ⟨f', n, hf', harm, e⟩ <;> rw [e] at ha <;> simp at ha
    · subst ha; exact stay_free rfl rfl
    · rcases ha with ha | ha <;> subst ha
      · refine ⟨rfl, fun _ => (hF t f' hf').2 ?_⟩
        cases f' <;> first | rfl | (cases harm; done)
      · exact stay_free rfl rfl
  · intro s t _ _ _ _ hA; exact hA.elim
  · intro s t _ _ hA; exact hA.elim

/-- Only three places change the arrays and the free list. -/
theorem keep_arrays {g g' : G} {t : Tid} {ok : Bool} {v : Nat} {f : Frame} {nx : Next}
    {sp : Option Frame} (h : fstep g t ok v f = some (g', nx, sp)) (h1 : f.newborn = false) :
    (g'.nArr = g.nArr ∧ g'.pos = g.pos ∧ g'.free = g.free ∧ f.takes g ok = none ∧ f.gives g t = none) ∨
    (g.hasUsed = false ∧ g'.nArr = g.nArr ∧ g'.pos = 0 ∧ g'.free = [] ∧ f.takes g ok = none ∧
      f.gives g t = none) ∨
    (∃ n, f = .ul1 n ∧ g'.nArr = g.nArr ∧ g'.pos = g.pos ∧ g'.free = n :: g.free ∧
      f.takes g ok = none ∧ f.gives g t = some t) ∨
    (∃ c my st ar d a, f = .mk1 c my st ar d ∧ alloc g ok = some a ∧ g'.nArr = a.nArr ∧ g'.pos = a.pos ∧
      g'.free = a.free ∧ f.takes g ok = some c ∧ f.gives g t = none) := by
  cases f <;> fstep_cases h <;> first
    | exact Or.inl ⟨rfl, rfl, rfl, rfl, rfl⟩
    | (simp [Frame.newborn] at h1; done)
    | skip
  · rename_i n hx
    exact Or.inl ⟨rfl, rfl, rfl, rfl, by simp [Frame.gives, hx]⟩
  · rename_i n hx hl
    exact Or.inr (Or.inr (Or.inl ⟨n, rfl, rfl, rfl, rfl, rfl, by simp [Frame.gives, hx, hl]⟩))
  · rename_i n hx hl
    exact Or.inl ⟨rfl, rfl, rfl, rfl, by simp [Frame.gives, hl]⟩
  · rename_i hu
    exact Or.inr (Or.inl ⟨by simpa using hu, rfl, rfl, rfl, rfl, rfl⟩)
  · rename_i ha
    exact Or.inl ⟨rfl, rfl, rfl, by simp [Frame.takes, ha], rfl⟩
  · rename_i ha
    exact Or.inr (Or.inr (Or.inr ⟨_, _, _, _, _, _, rfl, ha, rfl, rfl, rfl, by simp [Frame.takes, ha], rfl⟩))

theorem used_first {s : S} (hs : ReachA Stay s) (h : s.g.hasUsed = false) :
    s.g.nArr = 0 ∧ s.g.pos = 0 ∧ s.g.free = [] := by
  revert h
  refine glob_inv (A := Stay) (GI := fun g => g.hasUsed = false → g.nArr = 0 ∧ g.pos = 0 ∧ g.free = [])
    (fun _ => ⟨rfl, rfl, rfl⟩) ?_ (fun _ h => h) (fun _ h => h) hs
  intro s t f rest ok v g' nx sp hr hA ht hG h hu
  have hft : f ∈ s.th t := by rw [ht]; exact List.mem_cons_self
  obtain ⟨h1, h2⟩ := stay_frames hr hft
  have hk := used_keep h h1
  have hu0 : s.g.hasUsed = false := by
    cases e : s.g.hasUsed with
    | false => rfl
    | true => rw [hk e] at hu; cases hu
  obtain ⟨e1, e2, e3⟩ := hG hu0
  rcases keep_arrays h h1 with ⟨k1, k2, k3, _⟩ | ⟨_, k1, k2, k3, _⟩ | ⟨n, e, _⟩ | ⟨c, my, st, ar, d, a, e, _⟩
  · exact ⟨k1.trans e1, k2.trans e2, k3.trans e3⟩
  · exact ⟨k1.trans e1, k2, k3⟩
  · subst e; rw [h2 rfl] at hu0; cases hu0
  · subst e; rw [h2 rfl] at hu0; cases hu0

theorem pos_le {s : S} (hs : ReachA Stay s) : s.g.pos ≤ arraySize := by
  refine glob_inv (A := Stay) (GI := fun g => g.pos ≤ arraySize) (Nat.zero_le _) ?_ (fun _ h => h)
    (fun _ h => h) hs
  intro s t f rest ok v g' nx sp hr hA ht hG h
  have hft : f ∈ s.th t := by rw [ht]; exact List.mem_cons_self
  obtain ⟨h1, h2⟩ := stay_frames hr hft
  rcases keep_arrays h h1 with ⟨_, k, _⟩ | ⟨_, _, k, _⟩ | ⟨n, _, _, k, _⟩ | ⟨c, my, st, ar, d, a, _, ha, _, k, _⟩
  · rw [k]; exact hG
  · rw [k]; exact Nat.zero_le _
  · rw [k]; exact hG
  · rw [k]
    unfold alloc at ha
    split at ha
    · cases ha; exact hG
    · split at ha
      · cases ha; assumption
      · split at ha
        · cases ha; show 1 ≤ arraySize; decide
        · cases ha

/-- An array is taken into use together with its first record. -/
theorem pos_pos {s : S} (hs : ReachA Stay s) : s.g.nArr = 0 ∨ 1 ≤ s.g.pos := by
  refine glob_inv (A := Stay) (GI := fun g => g.nArr = 0 ∨ 1 ≤ g.pos) (Or.inl rfl) ?_ (fun _ h => h)
    (fun _ h => h) hs
  intro s t f rest ok v g' nx sp hr hA ht hG h
  have hft : f ∈ s.th t := by rw [ht]; exact List.mem_cons_self
  obtain ⟨h1, h2⟩ := stay_frames hr hft
  rcases keep_arrays h h1 with ⟨k1, k2, _⟩ | ⟨hu, k1, _⟩ | ⟨n, _, k1, k2, _⟩ | ⟨c, my, st, ar, d, a, _, ha, k1, k2, _⟩
  · rw [k1, k2]; exact hG
  · rw [k1]; exact Or.inl (used_first hr hu).1
  · rw [k1, k2]; exact hG
  · rw [k1, k2]
    unfold alloc at ha
    split at ha
    · cases ha; exact hG
    · split at ha
      · cases ha; exact Or.inr (Nat.succ_le_succ (Nat.zero_le _))
      · split at ha
        · cases ha; exact Or.inr (Nat.le_refl 1)
        · cases ha

/-- A record is taken off the free list, or off the array if that list is empty. -/
theorem alloc_account {g : G} {ok : Bool} {a : Got} (h : alloc g ok = some a) (hp : g.pos ≤ arraySize) :
    a.nArr * arraySize + a.pos + g.free.length = g.nArr * arraySize + g.pos + a.free.length + 1 ∧
      (g.free ≠ [] → a.nArr = g.nArr ∧ a.pos = g.pos) := by
  unfold alloc at h
  split at h
  · rename_i e
    cases h
    refine ⟨?_, fun _ => ⟨rfl, rfl⟩⟩
    rw [e, List.length_cons]; simp only []; omega
  · rename_i e
    split at h
    · cases h
      refine ⟨?_, fun h => absurd e h⟩
      rw [e]; simp only [List.length_nil]; omega
    · split at h
      · cases h
        refine ⟨?_, fun h => absurd e h⟩
        rw [e]; simp only [List.length_nil, Nat.succ_mul]; omega
      · cases h

theorem takes_go {s : S} {t : Tid} {f : Frame} {rest : List Frame} {ok : Bool} {v : Nat}
    (ht : s.th t = f :: rest) : takes s (.step t (.go ok v)) = f.takes s.g ok := by
  simp [takes, ht]

theorem gives_go {s : S} {t : Tid} {f : Frame} {rest : List Frame} {ok : Bool} {v : Nat}
    (ht : s.th t = f :: rest) : gives s (.step t (.go ok v)) = f.gives s.g t := by
  simp [gives, ht]

/-- What a step does to the account. -/
theorem account_step {s s' : S} {l : Lbl} (hs : ReachA Stay s) (hA : Stay s l) (hn : next s l = some s') :
    records s'.g + (gives s l).toList.length + s.g.free.length =
      records s.g + s'.g.free.length + (takes s l).toList.length ∧
    (records s'.g ≠ records s.g → s'.g.free = []) := by
  have hm := move_of_next hn
  cases hm with
  | @go t f rest ok v r hd ht hf =>
    obtain ⟨g', nx, sp⟩ := r
    have hft : f ∈ s.th t := by rw [ht]; exact List.mem_cons_self
    have e1 : records (applyRes s t rest (g', nx, sp)).g = records g' := by
      rw [applyRes_g]; split <;> rfl
    have e2 : (applyRes s t rest (g', nx, sp)).g.free = g'.free := by
      rw [applyRes_g]; split <;> rfl
    rw [takes_go ht, gives_go ht, e1, e2]
    unfold records
    rcases keep_arrays hf (stay_frames hs hft).1 with ⟨k1, k2, k3, k4, k5⟩ | ⟨k0, k1, k2, k3, k4, k5⟩ |
        ⟨n, e, k1, k2, k3, k4, k5⟩ | ⟨c, my, st, ar, d, a, e, ha, k1, k2, k3, k4, k5⟩
    · rw [k1, k2, k3, k4, k5]; exact ⟨by simp, fun h => absurd rfl h⟩
    · obtain ⟨z1, z2, z3⟩ := used_first hs k0
      rw [k1, k2, k3, k4, k5, z1, z2, z3]; exact ⟨by simp, fun h => absurd rfl h⟩
    · rw [k1, k2, k3, k4, k5]
      exact ⟨by simp; omega, fun h => absurd rfl h⟩
    · obtain ⟨h1, h2⟩ := alloc_account ha (pos_le hs)
      rw [k1, k2, k3, k4, k5]
      refine ⟨by simp; omega, fun h => ?_⟩
      by_cases e : s.g.free = []
      · unfold alloc at ha
        rw [e] at ha
        simp only [] at ha
        split at ha
        · cases ha; rfl
        · split at ha
          · cases ha; rfl
          · cases ha
      · obtain ⟨h3, h4⟩ := h2 e
        rw [h3, h4] at h
        exact absurd rfl h
  | call => exact ⟨by simp [takes, gives], fun h => absurd rfl h⟩
  | unwind => exact ⟨by simp [takes, gives], fun h => absurd rfl h⟩
  | deliver => exact ⟨by simp [takes, gives], fun h => absurd rfl h⟩
  | interrupt => exact ⟨by simp [takes, gives], fun h => absurd rfl h⟩
  | fork => exact hA.elim
  | realFork => exact hA.elim

theorem account {B : S → List Nat → List Tid → Prop} {s : S} {M : List Nat} {R : List Tid}
    (h : Exec Stay B s M R) : records s.g + R.length = s.g.free.length + M.length := by
  induction h with
  | init => rfl
  | next hr hA hn _ ih =>
    have := (account_step hr.reach hA hn).1
    simp only [List.length_append]
    omega

theorem peak {k : Nat} {s : S} {M : List Nat} {R : List Tid} (h : Exec Stay (OutB k) s M R) :
    records s.g ≤ k := by
  induction h with
  | init => exact Nat.zero_le _
  | @next s s' l M R hr hA hn hb ih =>
    by_cases e : records s'.g = records s.g
    · rw [e]; exact ih
    · have h1 := (account_step hr.reach hA hn).2 e
      have h2 := account (.next hr hA hn hb)
      rw [h1] at h2
      unfold OutB at hb
      simp only [List.length_nil] at h2
      omega

/-! ## Each call is given one record -/

/-- Call `c` of pthread_create has not been given a record yet. -/
def Frame.noRec (c : Nat) : Frame → Bool
  | .pc3 c' .. | .pc4 c' .. | .pcSup0 c' .. | .pcSup1 c' .. | .pcSup c' .. | .pc5 c' ..
  | .pcPre c' .. | .mk0 c' .. | .mk1 c' .. => decide (c' = c)
  | _ => false

theorem noRec_tok {c : Nat} {f : Frame} (h : f.noRec c = true) : tokSpawn c f = 1 := by
  cases f <;> first
    | (cases h; done)
    | simp [tokSpawn, of_decide_eq_true h]

theorem noRec_go {g g' : G} {t : Tid} {ok : Bool} {v : Nat} {f : Frame} {l : List Frame}
    {sp : Option Frame} (h : fstep g t ok v f = some (g', .go l, sp)) {c : Nat} {a : Frame} (ha : a ∈ l)
    (he : a.noRec c = true) : (f.noRec c = true ∧ ∀ my st ar d, f ≠ .mk1 c my st ar d) ∨ c = g.nextCall := by
  cases f <;> fstep_cases h <;>
    simp only [List.mem_cons, List.not_mem_nil, or_false] at ha <;>
    (try (rcases ha with ha | ha)) <;> (try subst ha) <;> first
    | (cases he; done)
    | (cases ha; done)
    | exact Or.inl ⟨he, nofun⟩
    | exact Or.inr (of_decide_eq_true he).symm
    | (split at ha <;> simp only [List.mem_cons, List.not_mem_nil, or_false] at ha; subst ha; cases he; done)

theorem noRec_sp {g g' : G} {t : Tid} {ok : Bool} {v : Nat} {f a : Frame} {nx : Next}
    (h : fstep g t ok v f = some (g', nx, some a)) (c : Nat) : a.noRec c = false := by
  cases f <;> fstep_cases h <;> rfl

theorem call_mono {g g' : G} {t : Tid} {ok : Bool} {v : Nat} {f : Frame} {nx : Next}
    {sp : Option Frame} (h : fstep g t ok v f = some (g', nx, sp)) : g.nextCall ≤ g'.nextCall := by
  cases f <;> fstep_cases h <;> first
    | exact Nat.le_refl _
    | exact Nat.le_succ _
    | (simp only [G.emit, G.upd, resetList]; split <;> exact Nat.le_refl _)

/-- The calls in `M` are past the point where they were given a record. -/
def MI (s : S) (M : List Nat) : Prop :=
  ∀ c ∈ M, c < s.g.nextCall ∧ ∀ u f, f ∈ s.th u → f.noRec c = false

theorem mi_sub {s s' : S} {M : List Nat} (h : MI s M) (hg : s'.g = s.g)
    (hf : ∀ u f c, f ∈ s'.th u → f.noRec c = true → f ∈ s.th u) : MI s' M := by
  intro c hc
  obtain ⟨h1, h2⟩ := h c hc
  refine ⟨by rw [hg]; exact h1, fun u f hm => ?_⟩
  cases e : f.noRec c with
  | false => rfl
  | true => rw [h2 u f (hf u f c hm e)] at e; cases e

theorem noRec_push {f : Frame} {c : Nat} (h : f.pushable = true) : f.noRec c = false := by
  cases f <;> first | rfl | (simp [Frame.pushable] at h; done)

theorem noRec_unwound {l : List Frame} {f : Frame} {c : Nat} (h : f ∈ unwound l) : f.noRec c = false := by
  rcases unwound_cases l with e | ⟨_, n, _, _, e⟩ <;> rw [e] at h <;> simp at h <;>
    (try (rcases h with h | h)) <;> (try subst h) <;> rfl

theorem mi_inv {A : S → Lbl → Prop} {B : S → List Nat → List Tid → Prop} (hst : ∀ s l, A s l → Stay s l)
    {s : S} {M : List Nat} {R : List Tid} (h : Exec A B s M R) : M.Nodup ∧ MI s M := by
  induction h with
  | init => exact ⟨List.nodup_nil, fun c hc => by cases hc⟩
  | @next s s' l M R hr hA hn hb ih =>
    obtain ⟨i1, i2⟩ := ih
    have hm := move_of_next hn
    cases hm with
    | @go t f rest ok v r hd ht hf =>
      obtain ⟨g', nx, sp⟩ := r
      have hft : f ∈ s.th t := by rw [ht]; exact List.mem_cons_self
      have hcall : (applyRes s t rest (g', nx, sp)).g.nextCall = g'.nextCall := by
        rw [applyRes_g]; split <;> rfl
      have hold : MI (applyRes s t rest (g', nx, sp)) M := by
        intro c hc
        obtain ⟨h1, h2⟩ := i2 c hc
        refine ⟨by rw [hcall]; exact Nat.lt_of_lt_of_le h1 (call_mono hf), fun u a hm => ?_⟩
        rcases applyRes_mem ht hm with hm | ⟨l, e, eu, hl⟩ | ⟨e, eu⟩ | ⟨eu, e | ⟨f', n, hf', ha, e⟩⟩
        · exact h2 u a hm
        · cases e1 : a.noRec c with
          | false => rfl
          | true =>
            subst e
            rcases noRec_go hf hl e1 with h3 | h3
            · rw [h2 t f hft] at h3; cases h3.1
            · omega
        · subst e; exact noRec_sp hf c
        · subst e; rfl
        · subst e; rfl
      rw [takes_go ht]
      cases e : f.takes s.g ok with
      | none => exact ⟨i1, hold⟩
      | some c =>
        have hef : f.noRec c = true ∧ ∃ my st ar d, f = .mk1 c my st ar d := by
          cases f <;> first
            | (cases e; done)
            | (simp only [Frame.takes] at e
               split at e <;> cases e
               exact ⟨decide_eq_true rfl, _, _, _, _, rfl⟩)
        have hcM : c ∉ M := fun hc => by
          have := (i2 c hc).2 t f hft
          rw [hef.1] at this; cases this
        refine ⟨List.nodup_cons.2 ⟨hcM, i1⟩, fun c' hc' => ?_⟩
        rcases List.mem_cons.1 hc' with e' | hc'
        · subst e'
          have hone := oneTok_spawnCall c' hr.reach
          obtain ⟨_, h2, h3⟩ := oneTok_holder hone ht (noRec_tok hef.1)
          have hlt : c' < s.g.nextCall := by
            apply Classical.byContradiction
            intro hn
            have := (hone.1 (by simpa using hn)).2 t
            rw [ht, toks_cons, noRec_tok hef.1] at this
            omega
          refine ⟨by rw [hcall]; exact Nat.lt_of_lt_of_le hlt (call_mono hf), fun u a hm => ?_⟩
          cases e1 : a.noRec c' with
          | false => rfl
          | true =>
            have e2 := noRec_tok e1
            obtain ⟨_, my, st, ar, d, ef⟩ := hef
            subst ef
            simp only [fstep, cont] at hf
            split at hf
            · rename_i ha
              simp [Frame.takes, ha] at e
            · cases hf
              rcases mem_setTh hm with ⟨_, hm⟩ | ⟨eu, hm⟩
              · rcases List.mem_append.1 hm with hm | hm
                · rw [List.mem_singleton] at hm
                  subst hm; cases e1
                · have := toks_pos (tok := tokSpawn c') hm; omega
              · have := toks_pos (tok := tokSpawn c') hm
                have := h3 u eu
                omega
        · exact hold c' hc'
    | @call t f rest a hd ht hf =>
      refine ⟨i1, mi_sub i2 rfl fun u x c hm he => ?_⟩
      rcases mem_setTh hm with ⟨e, hm⟩ | ⟨_, hm⟩
      · rcases List.mem_append.1 hm with hm | hm
        · rw [noRec_push (api_pushable hm)] at he; cases he
        · rw [e, ht]; exact hm
      · exact hm
    | @unwind t f rest hd ht hf =>
      refine ⟨i1, mi_sub i2 rfl fun u x c hm he => ?_⟩
      rcases mem_setTh hm with ⟨e, hm⟩ | ⟨_, hm⟩
      · rw [noRec_unwound hm] at he; cases he
      · exact hm
    | @deliver t f rest hd ht hf =>
      refine ⟨i1, mi_sub i2 rfl fun u x c hm he => ?_⟩
      rcases mem_setTh hm with ⟨e, hm⟩ | ⟨_, hm⟩
      · rcases List.mem_cons.1 hm with hm | hm
        · subst hm; cases he
        · rw [e, ht]; exact hm
      · exact hm
    | @interrupt t f rest hd ht =>
      refine ⟨i1, mi_sub i2 rfl fun u x c hm he => ?_⟩
      rcases mem_setTh hm with ⟨e, hm⟩ | ⟨_, hm⟩
      · rcases List.mem_cons.1 hm with hm | hm
        · subst hm; cases he
        · rw [e, ht]; exact hm
      · exact hm
    | fork => exact (hst _ _ hA).elim
    | realFork => exact (hst _ _ hA).elim

/-! ## Threads that are finished give their records back -/

def Frame.owes : Frame → Bool
  | .finCb _ .cleanup _ | .ul0 _ | .ul1 _ => true
  | _ => false

theorem owes_cleanup {f : Frame} (h : f.owes = true) : f.cleanup = true := by
  cases f <;> first
    | (cases h; done)
    | rfl
    | (rename_i src _; cases src <;> first | rfl | (cases h; done))

theorem clFini_new {g g' : G} {t : Tid} {ok : Bool} {v : Nat} {f : Frame} {nx : Next}
    {sp : Option Frame} (h : fstep g t ok v f = some (g', nx, sp)) {u : Tid} {k : Int} {d : Data}
    (hm : (u, .finiThread k d .cleanup) ∈ g'.tr) : (u, .finiThread k d .cleanup) ∈ g.tr ∨
      (u = t ∧ ∃ n k, nx = .go [.finCb n .cleanup k]) := by
  cases f <;> fstep_cases h <;> first
    | exact Or.inl hm
    | (simp [G.emit, G.upd] at hm; exact Or.inl hm)
    | (rcases List.mem_cons.1 hm with hm | hm
       · injection hm with h1 h2
         injection h2 with _ _ h2
         subst h2
         exact Or.inr ⟨h1, _, _, rfl⟩
       · exact Or.inl hm)

/-- Where a thread that owes its record goes on to. -/
theorem owes_go {g g' : G} {t : Tid} {ok : Bool} {v : Nat} {f : Frame} {nx : Next}
    {sp : Option Frame} (h : fstep g t ok v f = some (g', nx, sp)) (ho : f.owes = true) :
    g'.inExit = true ∨ f.gives g t = some t ∨ nx = .die ∨ ∃ l, nx = .go l ∧ ∃ a ∈ l, a.owes = true := by
  cases f <;> first | (cases ho; done) | skip
  · rename_i n src k
    cases src <;> first | (cases ho; done) | skip
    fstep_cases h
    · exact Or.inr (Or.inr (Or.inr ⟨_, rfl, _, List.mem_cons_self, rfl⟩))
    · contradiction
  · fstep_cases h
    exact Or.inr (Or.inr (Or.inr ⟨_, rfl, _, List.mem_cons_self, rfl⟩))
  · fstep_cases h
    · left; assumption
    · rename_i n hx hl
      right; left
      simp [Frame.gives, hx, hl]
    · exact Or.inr (Or.inr (Or.inl rfl))

theorem applyRes_other {s : S} {t : Tid} {rest : List Frame} {r : Res} {u : Tid} (hu : u ≠ t)
    (hn : u ≠ s.g.nextTid) : (applyRes s t rest r).th u = s.th u := by
  obtain ⟨g', nx, sp⟩ := r
  cases nx <;> cases sp <;> simp [applyRes, setTh, hu, hn]

def BackI (s : S) (R : List Tid) : Prop :=
  ∀ u k d, (u, Ev.finiThread k d .cleanup) ∈ s.g.tr →
    s.g.inExit = true ∨ u ∈ R ∨ ∃ f ∈ s.th u, f.owes = true

theorem gaveBack_inv {B : S → List Nat → List Tid → Prop} {s : S} {M : List Nat} {R : List Tid}
    (h : Exec CleanStay B s M R) : BackI s R := by
  induction h with
  | init => intro u k d h; cases h
  | @next s s' l M R hr hA hn hb ih =>
    have hm := move_of_next hn
    have hsh := shape_inv hr.reach
    cases hm with
    | @go t f rest ok v r hd ht hf =>
      obtain ⟨g', nx, sp⟩ := r
      have hft : f ∈ s.th t := by rw [ht]; exact List.mem_cons_self
      have hin : (applyRes s t rest (g', nx, sp)).g.inExit = g'.inExit := by
        rw [applyRes_g]; split <;> rfl
      have htr : (applyRes s t rest (g', nx, sp)).g.tr = g'.tr := by
        rw [applyRes_g]; split <;> rfl
      have hfr := fresh_inv hr.reach
      have htn : t ≠ s.g.nextTid := by
        intro e
        have := hfr t (by omega)
        rw [ht] at this; cases this
      intro u k d hev
      rw [htr] at hev
      rw [hin, gives_go ht]
      rcases clFini_new hf hev with hev | ⟨eu, n, k', e⟩
      · rcases ih u k d hev with h1 | h1 | ⟨a, ha, ho⟩
        · exact Or.inl (inExit_keep hf h1)
        · exact Or.inr (Or.inl (List.mem_append_right _ h1))
        · by_cases eu : u = t
          · subst eu
            have hdie : nx = .die → (applyRes s u rest (g', nx, sp)).th u = s.th u := by
              intro e; subst e
              cases sp <;> simp [applyRes, setTh, htn]
            have hgo : ∀ l, nx = .go l → (applyRes s u rest (g', nx, sp)).th u = l ++ rest := by
              intro l e; subst e
              simp [applyRes, setTh]
            cases e : nx with
            | die => exact Or.inr (Or.inr ⟨a, by rw [← e, hdie e]; exact ha, ho⟩)
            | unwind =>
              exfalso
              have hp : f.isPx = true := by
                subst e
                cases f <;> fstep_cases hf <;> rfl
              exact (hA.1.2 f (by rw [ht]; rfl)).1 hp (shape_tdtor (hsh u) ha (owes_cleanup ho))
            | go l =>
              rw [← e, hgo l e]
              rw [ht] at ha
              rcases List.mem_cons.1 ha with e2 | ha
              · subst e2
                rcases owes_go hf ho with h1 | h1 | h1 | ⟨l', e3, a', ha', ho'⟩
                · exact Or.inl h1
                · right; left
                  rw [h1]; exact List.mem_cons_self
                · rw [e] at h1; cases h1
                · rw [e] at e3; cases e3
                  exact Or.inr (Or.inr ⟨a', List.mem_append_left _ ha', ho'⟩)
              · exact Or.inr (Or.inr ⟨a, List.mem_append_right _ ha, ho⟩)
          · have hne : u ≠ s.g.nextTid := by
              intro e
              have := hfr u (by omega)
              rw [this] at ha; cases ha
            exact Or.inr (Or.inr ⟨a, by rw [applyRes_other eu hne]; exact ha, ho⟩)
      · right; right
        subst eu e
        exact ⟨_, by simp only [applyRes, setTh_self]; exact List.mem_cons_self, rfl⟩
    | @call t f rest a hd ht hf =>
      intro u k d hev
      rcases ih u k d hev with h1 | h1 | ⟨a, ha, ho⟩
      · exact Or.inl h1
      · exact Or.inr (Or.inl h1)
      · refine Or.inr (Or.inr ⟨a, ?_, ho⟩)
        by_cases e : u = t
        · subst e
          simp only [setTh_self]
          rw [ht] at ha
          exact List.mem_append_right _ ha
        · simp only [setTh_ne _ _ e]; exact ha
    | @unwind t f rest hd ht hf =>
      intro u k d hev
      rcases ih u k d hev with h1 | h1 | ⟨a, ha, ho⟩
      · exact Or.inl h1
      · exact Or.inr (Or.inl h1)
      · by_cases e : u = t
        · subst e
          exact absurd (shape_tdtor (hsh u) ha (owes_cleanup ho)) hA.1.2
        · exact Or.inr (Or.inr ⟨a, by simp only [setTh_ne _ _ e]; exact ha, ho⟩)
    | @deliver t f rest hd ht hon hh =>
      intro u k d hev
      rcases ih u k d hev with h1 | h1 | ⟨a, ha, ho⟩
      · exact Or.inl h1
      · exact Or.inr (Or.inl h1)
      · refine Or.inr (Or.inr ⟨a, ?_, ho⟩)
        by_cases e : u = t
        · subst e
          simp only [setTh_self]
          rw [ht] at ha
          exact List.mem_cons_of_mem _ ha
        · simp only [setTh_ne _ _ e]; exact ha
    | @interrupt t f rest hd ht =>
      intro u k d hev
      rcases ih u k d hev with h1 | h1 | ⟨a, ha, ho⟩
      · exact Or.inl h1
      · exact Or.inr (Or.inl h1)
      · refine Or.inr (Or.inr ⟨a, ?_, ho⟩)
        by_cases e : u = t
        · subst e
          simp only [setTh_self]
          rw [ht] at ha
          exact List.mem_cons_of_mem _ ha
        · simp only [setTh_ne _ _ e]; exact ha
    | fork => exact hA.2.elim
    | realFork => exact hA.2.elim

/-! ## Threads and calls -/

/-- The thread a call has made. -/
def Made (tr : Hist) (c : Nat) (t : Tid) : Prop := ∃ u n st ar d, (u, Ev.spawn c t n st ar d) ∈ tr

theorem made_new {g g' : G} {t : Tid} {ok : Bool} {v : Nat} {f : Frame} {nx : Next}
    {sp : Option Frame} (h : fstep g t ok v f = some (g', nx, sp)) {c : Nat} {w : Tid}
    (hm : Made g'.tr c w) : Made g.tr c w ∨ (w = g.nextTid ∧ g'.nextTid = g.nextTid + 1 ∧
      ∃ my n st ar d, f = .pc7 c my n st ar d) := by
  obtain ⟨u, n, st, ar, d, hm⟩ := hm
  cases f <;> fstep_cases h <;> first
    | exact Or.inl ⟨_, _, _, _, _, hm⟩
    | (simp [G.emit, G.upd] at hm; exact Or.inl ⟨_, _, _, _, _, hm⟩)
    | skip
  rcases List.mem_cons.1 hm with hm | hm
  · injection hm with h1 h2
    injection h2 with h2 h3
    subst h2 h3
    exact Or.inr ⟨rfl, rfl, _, _, _, _, _, rfl⟩
  · exact Or.inl ⟨_, _, _, _, _, hm⟩

theorem tid_mono {g g' : G} {t : Tid} {ok : Bool} {v : Nat} {f : Frame} {nx : Next}
    {sp : Option Frame} (h : fstep g t ok v f = some (g', nx, sp)) : g.nextTid ≤ g'.nextTid := by
  cases f <;> fstep_cases h <;> first
    | exact Nat.le_refl _
    | exact Nat.le_succ _
    | (simp only [G.emit, G.upd, resetList]; split <;> exact Nat.le_refl _)

theorem made_inv {A : S → Lbl → Prop} {s : S} (hs : ReachA A s) :
    1 ≤ s.g.nextTid ∧ (∀ c t, Made s.g.tr c t → 1 ≤ t ∧ t < s.g.nextTid) ∧
    ∀ c c' t, Made s.g.tr c t → Made s.g.tr c' t → c = c' := by
  refine glob_inv (A := A) (GI := fun g => 1 ≤ g.nextTid ∧
    (∀ c t, Made g.tr c t → 1 ≤ t ∧ t < g.nextTid) ∧
    ∀ c c' t, Made g.tr c t → Made g.tr c' t → c = c') ?_ ?_ (fun _ h => h) ?_ hs
  · refine ⟨Nat.le_refl _, ?_, ?_⟩
    · rintro c t ⟨_, _, _, _, _, h⟩; cases h
    · rintro c c' t ⟨_, _, _, _, _, h⟩; cases h
  · intro s t f rest ok v g' nx sp hr hA ht ⟨h1, h2, h3⟩ h
    have hmo := tid_mono h
    refine ⟨by omega, fun c w hm => ?_, fun c c' w hm hm' => ?_⟩
    · rcases made_new h hm with hm | ⟨e, e2, _⟩
      · have := h2 c w hm; omega
      · omega
    · rcases made_new h hm with hm | ⟨e, e2, my, n, st, ar, d, e3⟩ <;>
        rcases made_new h hm' with hm' | ⟨e', e2', my', n', st', ar', d', e3'⟩
      · exact h3 c c' w hm hm'
      · have := h2 c w hm; omega
      · have := h2 c' w hm'; omega
      · rw [e3] at e3'; cases e3'; rfl
  · intro s t real hr ⟨h1, h2, h3⟩
    have hm : ∀ c w, Made (s.g.emit t (.forked real)).tr c w → Made s.g.tr c w := by
      rintro c w ⟨u, n, st, ar, d, h⟩
      rcases List.mem_cons.1 h with h | h
      · injection h with _ h; cases h
      · exact ⟨u, n, st, ar, d, h⟩
    exact ⟨h1, fun c w h => h2 c w (hm c w h), fun c c' w h h' => h3 c c' w (hm c w h) (hm c' w h')⟩

theorem stay_tr {s : S} (hs : ReachA Stay s) : own s.g.tr = s.g.tr ∧ mainOf s.g.tr = 0 := by
  have key : ∀ e ∈ s.g.tr, e.2.isForked = false := by
    induction hs with
    | init => intro e h; cases h
    | @next s s' l hr hA hn ih =>
      have hm := move_of_next hn
      cases hm with
      | @go t f rest ok v r hd ht hf =>
        obtain ⟨g', nx, sp⟩ := r
        have htr : (applyRes s t rest (g', nx, sp)).g.tr = g'.tr := by
          rw [applyRes_g]; split <;> rfl
        rw [htr]
        intro e he
        cases f <;> fstep_cases hf <;> first
          | exact ih e he
          | (simp only [G.emit, G.upd, resetList_tr] at he
             rcases List.mem_cons.1 he with he | he
             · subst he; rfl
             · exact ih e he)
          | (rcases List.mem_cons.1 he with he | he
             · subst he; rfl
             · rcases List.mem_cons.1 he with he | he
               · subst he; rfl
               · exact ih e he)
      | call => exact ih
      | unwind => exact ih
      | deliver => exact ih
      | interrupt => exact ih
      | fork => exact hA.elim
      | realFork => exact hA.elim
  generalize s.g.tr = tr at key
  induction tr with
  | nil => exact ⟨rfl, rfl⟩
  | cons x tr ih =>
    obtain ⟨t, e⟩ := x
    have h1 := key _ List.mem_cons_self
    obtain ⟨h2, h3⟩ := ih fun e he => key e (List.mem_cons_of_mem _ he)
    simp only [own, mainOf]
    rw [h1]
    simp [h2, h3]

theorem inj_length {P : Nat → Tid → Prop} (hP : ∀ c c' t, P c t → P c' t → c = c') :
    ∀ {L : List Nat} {R : List Tid}, L.Nodup → (∀ c ∈ L, ∃ t ∈ R, P c t) → L.length ≤ R.length
  | [], _, _, _ => Nat.zero_le _
  | c :: L, R, hn, h => by
    obtain ⟨t, ht, hp⟩ := h c List.mem_cons_self
    obtain ⟨h1, h2⟩ := List.nodup_cons.1 hn
    have := inj_length hP (L := L) (R := R.erase t) h2 (fun c' hc' => by
      obtain ⟨t', ht', hp'⟩ := h c' (List.mem_cons_of_mem _ hc')
      refine ⟨t', ?_, hp'⟩
      rw [List.mem_erase_of_ne]
      · exact ht'
      · intro e
        subst e
        exact h1 (hP c c' t' hp hp' ▸ hc'))
    have hl := List.length_erase_of_mem ht
    have := List.length_pos_of_mem ht
    simp only [List.length_cons]
    omega

theorem filter_length (p : Nat → Bool) (M : List Nat) :
    M.length = (M.filter p).length + (M.filter fun c => !p c).length := by
  induction M with
  | nil => rfl
  | cons c M ih => cases e : p c <;> simp [e] <;> omega

/-- Threads that ran and are gone have given their records back. -/
theorem out_past {B : S → List Nat → List Tid → Prop} {k : Nat} {s : S} {M : List Nat} {R : List Tid}
    (h : Exec CleanStay B s M R) (hb : PastB k s M R) : OutB k s M R := by
  have hr := h.reach
  have hst : ReachA Stay s := reach_mono (fun _ _ h => h.2) hr
  have hce : ReachA CleanEnd s := reach_mono (fun _ _ h => h.1) hr
  obtain ⟨e1, e2⟩ := stay_tr hst
  obtain ⟨_, m1, m2⟩ := made_inv hr
  have hlen : (M.filter (past s)).length ≤ R.length := by
    refine inj_length m2 ((mi_inv (fun _ _ h => h.2) h).1.sublist List.filter_sublist) fun c hc => ?_
    have hp := (List.mem_filter.1 hc).2
    unfold past at hp
    rw [List.any_eq_true] at hp
    obtain ⟨⟨w, e⟩, he, hp⟩ := hp
    cases e <;> first | (cases hp; done) | skip
    rename_i c' t n st ar d
    simp only [Bool.and_eq_true, beq_iff_eq, List.isEmpty_iff, List.any_eq_true] at hp
    obtain ⟨⟨⟨ec, hth⟩, ⟨⟨t1, x1⟩, hx1, et1, hl⟩⟩, ⟨⟨t2, x2⟩, hx2, et2, hs2⟩⟩ := hp
    subst ec et1 et2
    simp only [] at *
    cases x1 <;> first | (cases hl; done) | skip
    cases x2 <;> first | (cases hs2; done) | skip
    rename_i k st' ar'
    have hmade : Made s.g.tr c' t2 := ⟨_, _, _, _, _, he⟩
    refine ⟨t2, ?_, hmade⟩
    have h0 := m1 _ _ hmade
    have hx0 : s.g.inExit = false := by
      cases e : s.g.inExit with
      | false => rfl
      | true =>
        obtain ⟨w, hw⟩ := linked_shoot hce (by rw [e1]; exact hx1) e
        rw [e1] at hw
        exact absurd rfl (hb.2 _ hw)
    have hend := endS_inv hce t2 (by rw [e2]; omega) ⟨k, by rw [e1]; exact hx1⟩
      ⟨st', ar', by rw [e1]; exact hx2⟩ hx0
    rw [hth] at hend
    rcases hend with ⟨k', ⟨d', _, _, hf⟩, _⟩ | ⟨f, hf, _⟩
    · rw [e1] at hf
      rcases gaveBack_inv h t2 k' d' hf with h1 | h1 | ⟨f, h1, _⟩
      · rw [hx0] at h1; cases h1
      · exact h1
      · rw [hth] at h1; cases h1
    · cases hf
  have := filter_length (past s) M
  have := hb.1
  unfold OutB
  omega

/-! ## Creations that fail -/

theorem setTh_setTh (th : Tid → List Frame) (t : Tid) (a b : List Frame) :
    setTh (setTh th t a) t b = setTh th t b := by
  funext u; unfold setTh; split <;> rfl

/-- One step of main. -/
theorem main_go {g g' : G} {th : Tid → List Frame} {f : Frame} {rest l : List Frame} {ok : Bool} {v : Nat}
    {M : List Nat} {R : List Tid} (h : Exec Stay Any ⟨g, setTh th 0 (f :: rest)⟩ M R) (hd : g.dead = false)
    (hf : fstep g 0 ok v f = some (g', .go l, none)) :
    Exec Stay Any ⟨g', setTh th 0 (l ++ rest)⟩ ((f.takes g ok).toList ++ M) ((f.gives g 0).toList ++ R) := by
  have hn : next ⟨g, setTh th 0 (f :: rest)⟩ (.step 0 (.go ok v)) = some ⟨g', setTh th 0 (l ++ rest)⟩ := by
    simp [next, step, hd, setTh_self, hf, applyRes, setTh_setTh]
  have := Exec.next h (l := .step 0 (.go ok v)) trivial hn trivial
  have e : (⟨g, setTh th 0 (f :: rest)⟩ : S).th 0 = f :: rest := by simp [setTh]
  rw [takes_go e, gives_go e] at this
  exact this

/-- Main is in the application, after a first call of pthread_create, and there are no other threads. -/
structure Alone (g : G) : Prop where
  used : g.hasUsed = true
  tsd : g.tsd 0 = some .main
  magic : g.main.magic = true
  ignore : g.main.ignore = false
  init : g.initCalled = true
  support : g.supportDone = true
  dead : g.dead = false
  lock : g.lock = false
  free : g.free = []
  tid : g.nextTid = 1
  cookie : g.cookie = false

theorem alloc_ok {g : G} (hf : g.free = []) : ∃ a, alloc g true = some a ∧ a.free = [] ∧ a.n ≠ .main := by
  unfold alloc
  rw [hf]
  by_cases h : g.pos < arraySize
  · exact ⟨⟨.slot g.arr g.pos, [], g.arr, g.pos + 1, g.nArr⟩, by simp [h], rfl, by simp⟩
  · exact ⟨⟨.slot (g.nArr + 1) 0, [], g.nArr + 1, 1, g.nArr + 1⟩, by simp [h], rfl, by simp⟩

theorem Alone.emit {g : G} (h : Alone g) (t : Tid) (e : Ev) : Alone (g.emit t e) :=
  ⟨h.used, h.tsd, h.magic, h.ignore, h.init, h.support, h.dead, h.lock, h.free, h.tid, h.cookie⟩

theorem Alone.info {g : G} (h : Alone g) (x : Option Nat) :
    Alone (g.upd .main (fun m => { m with info := x })) := by
  refine ⟨h.used, h.tsd, ?_, ?_, h.init, h.support, h.dead, h.lock, h.free, h.tid, h.cookie⟩
  · have := h.magic; simpa [G.main, G.upd] using this
  · have := h.ignore; simpa [G.main, G.upd] using this

theorem Alone.slot {g : G} (h : Alone g) {n : NodeId} (hn : n ≠ .main) (f : Node → Node) :
    Alone (g.upd n f) := by
  have hne : NodeId.main ≠ n := fun e => hn e.symm
  refine ⟨h.used, h.tsd, ?_, ?_, h.init, h.support, h.dead, h.lock, h.free, h.tid, h.cookie⟩
  · have := h.magic; simpa [G.main, G.upd, hne] using this
  · have := h.ignore; simpa [G.main, G.upd, hne] using this

theorem Alone.next {g : G} (h : Alone g) (k : Nat) : Alone { g with nextCall := k } :=
  ⟨h.used, h.tsd, h.magic, h.ignore, h.init, h.support, h.dead, h.lock, h.free, h.tid, h.cookie⟩

theorem Alone.arrays {g : G} (h : Alone g) (a b c : Nat) :
    Alone { g with free := [], arr := a, pos := b, nArr := c, lock := false } :=
  ⟨h.used, h.tsd, h.magic, h.ignore, h.init, h.support, h.dead, rfl, rfl, h.tid, h.cookie⟩

/-- A step of main that neither takes nor gives a record. -/
theorem main_go0 {g g' : G} {th : Tid → List Frame} {f : Frame} {rest l : List Frame} (ok : Bool) (v : Nat)
    {M : List Nat} {R : List Tid} (h : Exec Stay Any ⟨g, setTh th 0 (f :: rest)⟩ M R) (hd : g.dead = false)
    (hf : fstep g 0 ok v f = some (g', .go l, none)) (h1 : f.takes g ok = none) (h2 : f.gives g 0 = none) :
    Exec Stay Any ⟨g', setTh th 0 (l ++ rest)⟩ M R := by
  have := main_go h hd hf
  rw [h1, h2] at this
  exact this

/-- A call goes as far as monitor_make_thread_node. -/
theorem more1 {g : G} {th : Tid → List Frame} {M : List Nat}
    (h : Exec Stay Any ⟨g, setTh th 0 [.mainApp]⟩ M []) (ha : Alone g) :
    ∃ g' c, Exec Stay Any ⟨g', setTh th 0 [.mk0 c .main 70 71 0, .mainApp]⟩ M [] ∧ Alone g' := by
  have hg : getTn (g.emit 0 (.createCall g.nextCall 70 71)) 0 = some .main := by
    have := ha.magic
    simp only [G.main] at this
    simp [getTn, G.emit, ha.used, ha.tsd, this]
  have hn : next ⟨g, setTh th 0 [.mainApp]⟩ (.step 0 (.call (.create 70 71))) =
      some ⟨g, setTh th 0 [.pc0 70 71, .mainApp]⟩ := by
    simp [next, step, ha.dead, setTh_self, Frame.foreign, Api.frames, setTh_setTh]
  have x := Exec.next (l := .step 0 (.call (.create 70 71))) h trivial hn trivial
  simp only [takes, gives, Option.toList, List.nil_append] at x
  have x := main_go0 true 0 (l := [.pc2 70 71]) (g' := g) x ha.dead (by simp [fstep, cont, ha.used]) rfl rfl
  have a1 := ((ha.emit 0 (.createCall g.nextCall 70 71)).info (some g.nextCall)).next (g.nextCall + 1)
  have x := main_go0 true 0 (l := [.bp0 false 0, .pc3 g.nextCall (some .main) 70 71]) x ha.dead
    (by simp only [fstep, cont, hg]; rfl) rfl rfl
  revert x a1
  generalize ({ (g.emit 0 (.createCall g.nextCall 70 71)).upd .main
    (fun m => { m with info := some g.nextCall }) with nextCall := g.nextCall + 1 } : G) = g1
  intro a1 x
  have x := main_go0 true 0 (l := []) (g' := g1) x a1.dead (by simp [fstep, cont, a1.init]) rfl rfl
  have x := main_go0 true 0 (l := [.pc4 g.nextCall .main 70 71]) (g' := g1) x a1.dead (by
    have : (g1.nodes .main).ignore = false := a1.ignore
    simp [fstep, cont, this]) rfl rfl
  have x := main_go0 true 0 (l := [.pc5 g.nextCall .main 70 71]) (g' := g1) x a1.dead (by
    simp [fstep, cont, a1.support]) rfl rfl
  have x := main_go0 true 0 (l := [.pcPre g.nextCall .main 70 71]) x a1.dead rfl rfl rfl
  have x := main_go0 true 0 (l := [.mk0 g.nextCall .main 70 71 0]) x (a1.emit _ _).dead rfl rfl rfl
  exact ⟨_, _, x, (a1.emit _ _).emit _ _⟩

/-- ... gets its record ... -/
theorem more2 {g : G} {th : Tid → List Frame} {M : List Nat} {c : Nat}
    (h : Exec Stay Any ⟨g, setTh th 0 [.mk0 c .main 70 71 0, .mainApp]⟩ M []) (ha : Alone g) :
    ∃ g' n, Exec Stay Any ⟨g', setTh th 0 [.pc6 c .main n 70 71 0, .mainApp]⟩ (c :: M) [] ∧ Alone g' ∧
      n ≠ .main := by
  have x := main_go0 true 0 (l := [.mk1 c .main 70 71 0]) (g' := { g with lock := true }) h ha.dead (by
    simp [fstep, cont, ha.lock]) rfl rfl
  obtain ⟨a, hal, haf, han⟩ := alloc_ok (g := { g with lock := true }) ha.free
  have x := main_go (ok := true) (v := 0) (l := [.pc6 c .main a.n 70 71 0])
    (g' := { (({ g with lock := true } : G).upd a.n (fun _ => { magic := true, tid := -1 })) with
      free := a.free, arr := a.arr, pos := a.pos, nArr := a.nArr, lock := false }) x ha.dead (by
    simp only [fstep, cont, hal])
  have e1 : Frame.takes { g with lock := true } true (.mk1 c .main 70 71 0) = some c := by
    simp [Frame.takes, hal]
  rw [e1, haf] at x
  exact ⟨_, _, x, (ha.slot han (fun _ => { magic := true, tid := -1 })).arrays _ _ _, han⟩

/-- Another call fails. -/
theorem one_more {g : G} {th : Tid → List Frame} {M : List Nat}
    (h : Exec Stay Any ⟨g, setTh th 0 [.mainApp]⟩ M []) (ha : Alone g) :
    ∃ g' c, Exec Stay Any ⟨g', setTh th 0 [.mainApp]⟩ (c :: M) [] ∧ Alone g' := by
  obtain ⟨g1, c, x, a1⟩ := more1 h ha
  obtain ⟨g2, n, x, a2, hn⟩ := more2 x a1
  have x := main_go0 true 0 (l := [.pcStack c .main n 70 71 0]) x a2.dead rfl rfl rfl
  have a3 := a2.slot hn (fun m => { m with start := 70, arg := 71, data := 0 })
  revert x a3
  generalize g2.upd n (fun m => { m with start := 70, arg := 71, data := 0 }) = g3
  intro x a3
  have x := main_go0 true 0 (l := [.pc7 c .main n 70 71 0]) x a3.dead rfl rfl rfl
  have x := main_go0 false 0 (l := [.pc8 c .main n 0]) x a3.dead rfl rfl rfl
  have x := main_go0 true 0 (l := [.pcPost c .main]) x (a3.emit _ _).dead rfl rfl rfl
  have a4 := (a3.emit 0 (.spawnFail c)).emit 0 (.postCreate c ((g3.emit 0 (.spawnFail c)).nodes n).data)
  have x := main_go0 true 0 (l := []) x a4.dead rfl rfl rfl
  exact ⟨_, c, x, (a4.info none).emit _ _⟩

/-! ## Running schedules -/

def runX (A : S → Lbl → Prop) (B : S → List Nat → List Tid → Prop) [∀ s l, Decidable (A s l)]
    [∀ s M R, Decidable (B s M R)] : S → List Nat → List Tid → List Lbl → Option (S × List Nat × List Tid)
  | s, M, R, [] => some (s, M, R)
  | s, M, R, l :: ls =>
    if A s l then
      match next s l with
      | some s' =>
        if B s' ((takes s l).toList ++ M) ((gives s l).toList ++ R) then
          runX A B s' ((takes s l).toList ++ M) ((gives s l).toList ++ R) ls
        else none
      | none => none
    else none

theorem exec_of_runX {A : S → Lbl → Prop} {B : S → List Nat → List Tid → Prop} [∀ s l, Decidable (A s l)]
    [∀ s M R, Decidable (B s M R)] {s : S} {M : List Nat} {R : List Tid} {ls : List Lbl}
    (h : Exec A B s M R) {x : S × List Nat × List Tid} (hx : runX A B s M R ls = some x) :
    Exec A B x.1 x.2.1 x.2.2 := by
  induction ls generalizing s M R with
  | nil => cases hx; exact h
  | cons l ls ih =>
    unfold runX at hx
    split at hx
    · rename_i hA
      split at hx
      · rename_i s' hn
        split at hx
        · rename_i hB
          exact ih (.next h hA hn hB) hx
        · cases hx
      · cases hx
    · cases hx

theorem exists_of_runX {A : S → Lbl → Prop} {B : S → List Nat → List Tid → Prop} [∀ s l, Decidable (A s l)]
    [∀ s M R, Decidable (B s M R)] {ls : List Lbl} {p : S → List Nat → List Tid → Bool} (hi : B {} [] [])
    (h : (match runX A B {} [] [] ls with | some (s, M, R) => p s M R | none => false) = true) :
    ∃ s M R, Exec A B s M R ∧ p s M R = true := by
  split at h
  · rename_i s M R hx
    exact ⟨s, M, R, exec_of_runX (.init hi) hx, h⟩
  · cases h

end Libmonitor.Proc
