import Verif.Proc.Once
import Verif.Proc.Create
import Verif.Proc.SpecInfo
/-!
# New-thread info: invariants
-/

namespace Libmonitor.Proc

theorem open_cons (u t : Tid) (e : Ev) (old : Hist) : openCalls u ((t, e) :: old) =
    if t = u then
      match e with
      | .createCall c _ _ => c :: openCalls u old
      | .createRet _ => (openCalls u old).tail
      | _ => openCalls u old
    else openCalls u old := rfl

theorem open_skip {u t : Tid} {e : Ev} {old : Hist} (h1 : ∀ c st ar, e ≠ .createCall c st ar)
    (h2 : ∀ c, e ≠ .createRet c) : openCalls u ((t, e) :: old) = openCalls u old := by
  rw [open_cons]
  split
  · split
    · exact absurd rfl (h1 _ _ _)
    · exact absurd rfl (h2 _)
    · rfl
  · rfl

theorem open_step {g g' : G} {t : Tid} {ok : Bool} {v : Nat} {f : Frame} {nx : Next}
    {sp : Option Frame} (h : fstep g t ok v f = some (g', nx, sp)) (u : Tid) :
    openCalls u g'.tr = openCalls u g.tr ∨
    (u = t ∧ (∃ st ar, f = .pc2 st ar) ∧ openCalls u g'.tr = g.nextCall :: openCalls u g.tr) ∨
    (u = t ∧ ((∃ c my, f = .pcPost c my) ∨ ∃ c st ar, f = .pcIgn c st ar) ∧
      openCalls u g'.tr = (openCalls u g.tr).tail) := by
  have key : ∀ {e : Ev} {old : Hist}, (∀ c st ar, e ≠ .createCall c st ar) →
      (∀ c, e ≠ .createRet c) → openCalls u ((t, e) :: old) = openCalls u old :=
    fun h1 h2 => open_skip h1 h2
  cases f <;> fstep_cases h <;> first
    | exact Or.inl rfl
    | (refine Or.inl (key ?_ ?_) <;> simp; done)
    | (left; simp only [G.emit, G.upd, resetList_tr]; refine key ?_ ?_ <;> simp; done)
    | (refine Or.inl ((key ?_ ?_).trans (key ?_ ?_)) <;> simp; done)
    | (by_cases e : t = u
       · right; left
         exact ⟨e.symm, ⟨_, _, rfl⟩, by simp [G.emit, G.upd, open_cons, e]⟩
       · left; simp [G.emit, G.upd, open_cons, e]; done)
    | (by_cases e : t = u
       · right; right
         exact ⟨e.symm, Or.inl ⟨_, _, rfl⟩, by simp [G.emit, G.upd, open_cons, e]⟩
       · left; simp [G.emit, G.upd, open_cons, e]; done)
    | (by_cases e : t = u
       · right; right
         exact ⟨e.symm, Or.inr ⟨_, _, _, rfl⟩, by simp [G.emit, G.upd, open_cons, e]⟩
       · left; simp [G.emit, G.upd, open_cons, e]; done)

theorem plain_back {u : Tid} {es tr : Hist} (h : plain u (es ++ tr)) : plain u tr := by
  induction es with
  | nil => exact h
  | cons x es ih => exact ih h.2

theorem plain_step {g g' : G} {t : Tid} {ok : Bool} {v : Nat} {f : Frame} {nx : Next}
    {sp : Option Frame} (h : fstep g t ok v f = some (g', nx, sp)) {u : Tid} (hp : plain u g'.tr) :
    plain u g.tr := by
  obtain ⟨es, he⟩ := fstep_tr h
  rw [he] at hp
  exact plain_back hp

/-- One call at a time. -/
theorem plain_one {u : Tid} {tr : Hist} (h : plain u tr) : (openCalls u tr).length ≤ 1 := by
  induction tr with
  | nil => exact Nat.zero_le _
  | cons x tr ih =>
    obtain ⟨t, e⟩ := x
    have h2 := ih h.2
    rw [open_cons]
    split
    · rename_i e1
      split
      · have := ((h.1 e1).1 _ _ _ rfl).2
        rw [this]; simp
      · simp only [List.length_tail]; omega
      · exact h2
    · exact h2

/-- The thread was the initial one of this process or an ancestor. -/
def everMain (u : Tid) (tr : Hist) : Prop := u = 0 ∨ ∃ b, (u, Ev.forked b) ∈ tr

theorem main_ever (tr : Hist) : everMain (mainOf tr) tr := by
  induction tr with
  | nil => exact Or.inl rfl
  | cons x tr ih =>
    obtain ⟨t, e⟩ := x
    simp only [mainOf]
    split
    · rename_i h
      cases e <;> first | (cases h; done) | exact Or.inr ⟨_, List.mem_cons_self⟩
    · exact ih.imp_right fun ⟨b, h⟩ => ⟨b, List.mem_cons_of_mem _ h⟩

theorem everMain_mono {u : Tid} {tr tr' : Hist} (h : ∀ e, e ∈ tr → e ∈ tr') (hm : everMain u tr) :
    everMain u tr' := hm.imp_right fun ⟨b, k⟩ => ⟨b, h _ k⟩

/-- A plain thread that has entered pthread_create was registered. -/
theorem plain_reg {u : Tid} {tr : Hist} (h : plain u tr) (ho : openCalls u tr ≠ []) :
    (∃ k, (u, Ev.linked k) ∈ tr) ∨ everMain u tr := by
  induction tr with
  | nil => exact absurd rfl ho
  | cons x tr ih =>
    obtain ⟨t, e⟩ := x
    have back : (∃ k, (u, Ev.linked k) ∈ tr) ∨ everMain u tr →
        (∃ k, (u, Ev.linked k) ∈ (t, e) :: tr) ∨ everMain u ((t, e) :: tr) :=
      Or.imp (fun ⟨k, h⟩ => ⟨k, List.mem_cons_of_mem _ h⟩)
        (everMain_mono (fun _ => List.mem_cons_of_mem _))
    apply back
    rw [open_cons] at ho
    split at ho
    · rename_i e1
      split at ho
      · rcases ((h.1 e1).1 _ _ _ rfl).1 with k | k
        · right; rw [k]; exact main_ever tr
        · exact Or.inl k
      · refine ih h.2 (fun e => ho ?_)
        rw [e]; rfl
      · exact ih h.2 ho
    · exact ih h.2 ho

/-- Only the initial thread was one before. -/
theorem ever_inv {A : S → Lbl → Prop} {s : S} (hs : ReachA A s) :
    (0 < s.g.nextTid ∧ ∀ u b, (u, Ev.forked b) ∈ s.g.tr → u < s.g.nextTid) ∧
    ∀ u f, f ∈ s.th u → u ≠ mainOf s.g.tr → ¬ everMain u s.g.tr := by
  refine frames_invA (A := A)
    (GI := fun g => 0 < g.nextTid ∧ ∀ u b, (u, Ev.forked b) ∈ g.tr → u < g.nextTid)
    (FI := fun g u _ => u ≠ mainOf g.tr → ¬ everMain u g.tr)
    ⟨Nat.one_pos, fun _ _ h => by cases h⟩ (fun h => absurd rfl h) ?_ (fun _ h => h)
    (fun _ _ _ h => h) ?_ ?_ ?_ ?_ hs
  · intro s t f rest ok v g' nx sp hr _ ht hG hF h
    have hmo := mainOf_fstep h
    have hfk : ∀ {u b}, (u, Ev.forked b) ∈ g'.tr → (u, Ev.forked b) ∈ s.g.tr := by
      intro u b hm
      obtain ⟨es, e1, e2⟩ := fstep_forked h
      rw [e1] at hm
      rcases List.mem_append.1 hm with hm | hm
      · obtain ⟨e, k1, k2⟩ := List.mem_map.1 hm
        injection k2 with _ k3
        have := e2 e k1
        rw [k3] at this; cases this
      · exact hm
    have hev : ∀ {u}, everMain u g'.tr → everMain u s.g.tr :=
      fun h => h.imp_right fun ⟨b, k⟩ => ⟨b, hfk k⟩
    have hn := nextTid_mono h
    refine ⟨⟨by omega, fun u b hm => Nat.lt_of_lt_of_le (hG.2 u b (hfk hm)) hn⟩, ?_, ?_, ?_, ?_, ?_⟩
    · intro u h' hm _ hu hc
      rw [hmo] at hu
      exact hF u h' hm hu (hev hc)
    · intro _ hu hc
      rw [hmo] at hu
      exact hF t f (by rw [ht]; exact List.mem_cons_self) hu (hev hc)
    · intro l _ h' _ hu hc
      rw [hmo] at hu
      exact hF t f (by rw [ht]; exact List.mem_cons_self) hu (hev hc)
    · intro h' _ _ hc
      rcases hev hc with e | ⟨b, e⟩
      · have := hG.1; omega
      · have := hG.2 _ b e; omega
    · intro _ h' _ hu hc
      rw [hmo] at hu
      exact hF t f (by rw [ht]; exact List.mem_cons_self) hu (hev hc)
  · intro s t i h _ _ _ hne hF _ _ _ _ hu
    obtain ⟨f0, r0, e0⟩ := List.exists_cons_of_ne_nil hne
    exact hF t f0 (by rw [e0]; exact List.mem_cons_self) hu
  · intro s t _ _ _ hne hF h _ hu
    obtain ⟨f0, r0, e0⟩ := List.exists_cons_of_ne_nil hne
    exact hF t f0 (by rw [e0]; exact List.mem_cons_self) hu
  · intro s t c d rest hr _ ht hG hF
    refine ⟨⟨hG.1, fun u b hm => ?_⟩, fun h hm hu => absurd rfl hu⟩
    rcases List.mem_cons.1 hm with e | hm
    · injection e with e _; subst e
      rcases Nat.lt_or_ge u s.g.nextTid with h | h
      · exact h
      · rw [fresh_inv hr u h] at ht; cases ht
    · exact hG.2 u b hm
  · intro s t rest hr _ ht hG hF
    refine ⟨⟨hG.1, fun u b hm => ?_⟩, fun h hm hu => absurd rfl hu⟩
    rcases List.mem_cons.1 hm with e | hm
    · injection e with e _; subst e
      rcases Nat.lt_or_ge u s.g.nextTid with h | h
      · exact h
      · rw [fresh_inv hr u h] at ht; cases ht
    · exact hG.2 u b hm

/-- What changes the info of a record. -/
theorem info_step {g g' : G} {t : Tid} {ok : Bool} {v : Nat} {f : Frame} {nx : Next}
    {sp : Option Frame} (h : fstep g t ok v f = some (g', nx, sp)) (n : NodeId) :
    (g'.nodes n).info = (g.nodes n).info ∨
    ((∃ st ar, f = .pc2 st ar) ∧ getTn g t = some n) ∨
    (∃ c, f = .pcPost c n) ∨ (f = .ul1 n ∧ nx = .go []) ∨
    (∃ a c my st ar d, f = .mk1 c my st ar d ∧ alloc g ok = some a ∧ a.n = n ∧
      (g'.nodes n).info = none) ∨
    (n = .main ∧ f.resetting = true) := by
  by_cases hw : writes g t ok f = some n
  · cases f <;> first | (cases hw; done) | skip
    all_goals fstep_cases h
    all_goals first
      | exact Or.inl rfl
      | exact Or.inr (Or.inl ⟨⟨_, _, rfl⟩, hw⟩)
      | (simp only [writes, Option.some.injEq] at hw; subst hw
         first
         | (left; simp [G.emit, G.upd, listInit]; done)
         | exact Or.inr (Or.inr (Or.inl ⟨_, rfl⟩))
         | exact Or.inr (Or.inr (Or.inr (Or.inl ⟨rfl, rfl⟩)))
         | exact Or.inr (Or.inr (Or.inr (Or.inr (Or.inr ⟨rfl, rfl⟩)))))
      | skip
    all_goals first
      | (left; simp only [G.emit, G.upd]; split <;> rfl; done)
      | skip
    rename_i a ha
    simp only [writes, ha, Option.map_some, Option.some.injEq] at hw
    exact Or.inr (Or.inr (Or.inr (Or.inr (Or.inl ⟨a, _, _, _, _, _, rfl, ha, hw, by simp [G.upd, hw]⟩))))
  · left; rw [node_keep h hw]

theorem mine_inj {s : S} (hr : ReachA Clean s) {u t : Tid} {h h' : Frame} {n : NodeId}
    (hh : h ∈ s.th u) (htd : h = .tdtor → n = .main) (hm : Mine s.g u n) (hh' : h' ∈ s.th t)
    (htd' : h' = .tdtor → n = .main) (hm' : Mine s.g t n) : u = t := by
  by_cases hn : n = .main
  · rcases hm with ⟨_, e⟩ | ⟨e, _⟩
    · rcases hm' with ⟨_, e'⟩ | ⟨e', _⟩
      · rw [e, e']
      · exact absurd hn e'
    · exact absurd hn e
  · obtain ⟨f1, k1, _, _, k2⟩ := live_claims hr hh (fun e => hn (htd e)) hm hn
    obtain ⟨f2, k3, _, _, k4⟩ := live_claims hr hh' (fun e => hn (htd' e)) hm' hn
    exact (claims_excl hr hn k1 k2 k3 k4).1

theorem reg_getTn {s : S} (hr : ReachA Clean s) {t : Tid} {f : Frame} {rest : List Frame}
    (ht : s.th t = f :: rest) (hf : f ≠ .tdtor) (hres : f.resetting = false)
    (h : registered s.g.tr t) : ∃ n, getTn s.g t = some n := by
  by_cases hu : t = mainOf s.g.tr
  · exact ⟨_, getTn_main hr ht hres hu⟩
  · rcases h with h | ⟨k, hk⟩
    · exact absurd h hu
    · exact getTn_linked hr ht hf hu hk

/-- A record that nobody uses yet. -/
def fresh (g : G) (u : Tid) (f : Frame) (n : NodeId) : Prop :=
  f.newRec = some n ∨ (u ≠ mainOf g.tr ∧ f = .bt0 n)

theorem fresh_claims {g : G} {u : Tid} {f : Frame} {n : NodeId} (h : fresh g u f n) :
    claims g u f n := by
  rcases h with h | ⟨h1, h2⟩
  · exact Or.inl h
  · subst h2; exact Or.inr ⟨h1, rfl⟩

/-- It is not the record of a thread. -/
theorem fresh_mine {s : S} (hr : ReachA Clean s) {u t : Tid} {f h : Frame} {n : NodeId}
    (hf : f ∈ s.th u) (hfr : fresh s.g u f n) (hh : h ∈ s.th t) (htd : h ≠ .tdtor)
    (hm : Mine s.g t n) : False := by
  have hc := fresh_claims hfr
  have hn := claims_ne_main hr hf (hc.imp_right And.right)
  obtain ⟨f2, k1, k2, k3, k4⟩ := live_claims hr hh htd hm hn
  obtain ⟨e1, e2⟩ := claims_excl hr hn hf hc k1 k4
  subst e2
  rcases hfr with h | ⟨_, h⟩
  · cases f <;> first | (cases h; done) | (cases k2; done)
  · exact k3 h

theorem newInfo_inv {s : S} (hs : ReachA Clean s) {u : Tid} {f : Frame} (hf : f ∈ s.th u)
    {n : NodeId} (hn : fresh s.g u f n) : (s.g.nodes n).info = none := by
  refine (frames_invA (A := Clean) (GI := fun _ => True)
    (FI := fun g u f => ∀ n, fresh g u f n → (g.nodes n).info = none) trivial ?_ ?_
    (fun _ h => h) (fun _ _ _ h => h) ?_ ?_ ?_ ?_ hs).2 u f hf n hn
  · rintro n (h | ⟨_, h⟩) <;> cases h
  · intro s t f rest ok v g' nx sp hr hA ht _ hF h
    have hft : f ∈ s.th t := by rw [ht]; exact List.mem_cons_self
    have hmo := mainOf_fstep h
    have hfr : ∀ {u h' n}, fresh g' u h' n → fresh s.g u h' n := by
      intro u h' n hx
      unfold fresh at hx ⊢
      rw [hmo] at hx; exact hx
    have hne : s.th t ≠ [] := by rw [ht]; simp
    have hold : ∀ u h', h' ∈ s.th u → (u = t → h' ∈ rest) → ∀ n, fresh g' u h' n →
        (g'.nodes n).info = none := by
      intro u h' hm hrest n hx
      have hx := hfr hx
      have h0 := hF u h' hm n hx
      have hc := fresh_claims hx
      have hn := claims_ne_main hr hm (hc.imp_right And.right)
      rcases info_step h n with k | ⟨⟨st, ar, k1⟩, k2⟩ | ⟨c, k⟩ | ⟨k, _⟩ |
        ⟨a, c, my, st, ar, d, k1, k2, k3, k4⟩ | ⟨k, _⟩
      · rw [k]; exact h0
      · subst k1
        exact (fresh_mine hr hm hx hft (by simp)
          (getTn_mine hr (not_born hr ht rfl) hne k2)).elim
      · subst k
        exact (fresh_mine hr hm hx hft (by simp) (held_inv hr hft rfl)).elim
      · subst k
        exfalso
        have hc2 : claims s.g t (.ul1 n) n := Or.inr ⟨thr_ne_main hr hft (n := n) rfl rfl, rfl⟩
        obtain ⟨e1, e2⟩ := claims_excl hr hn hm hc hft hc2
        subst e2
        rcases hx with hx | ⟨_, hx⟩ <;> cases hx
      · exact k4
      · exact absurd k hn
    refine ⟨trivial, hold, ?_, ?_, ?_, ?_⟩
    · intro e n hx
      subst e
      exfalso
      cases f <;> fstep_cases h <;> rcases hx with hx | ⟨_, hx⟩ <;> cases hx
    · intro l e h' hm n hx
      subst e
      have hx := hfr hx
      have h0 := hF t f hft
      clear hold hF ht hft
      cases f <;> fstep_cases h <;>
        simp only [List.mem_cons, List.not_mem_nil, or_false] at hm <;>
        (try (rcases hm with hm | hm)) <;> (try subst hm) <;> rcases hx with hx | ⟨hx1, hx⟩ <;> first
        | (cases hm; done)
        | (cases hx; done)
        | (injection hx with hx; subst hx; simp [G.upd]; done)
        | (injection hx with hx; subst hx
           have := h0 _ (Or.inl rfl)
           simpa [G.upd] using this)
        | skip
    · intro h' e n hx
      subst e
      have h0 := hF t f hft
      clear hold hF ht
      cases f <;> fstep_cases h <;> rcases hx with hx | ⟨_, hx⟩ <;> cases hx
      exact h0 _ (Or.inl rfl)
    · intro _ h' hm n hx
      exfalso
      rcases unwound_cases rest with e | ⟨_, m, _, _, e⟩ <;> rw [e] at hm <;> simp at hm <;>
        (try (rcases hm with hm | hm)) <;> (try subst hm) <;> rcases hx with hx | ⟨_, hx⟩ <;> cases hx
  · intro s t i h _ _ _ _ _ _ _ hp _ n hx
    exfalso
    rcases hx with hx | ⟨_, hx⟩
    · cases h <;> first | (cases hx; done) | (simp [Frame.pushable] at hp; done)
    · subst hx; simp [Frame.pushable] at hp
  · intro s t _ _ _ _ _ h' hm n hx
    exfalso
    rcases unwound_cases (s.th t) with e | ⟨_, m, _, _, e⟩ <;> rw [e] at hm <;> simp at hm <;>
      (try (rcases hm with hm | hm)) <;> (try subst hm) <;> rcases hx with hx | ⟨_, hx⟩ <;> cases hx
  · intro s t c d rest hr hA ht _ _
    refine ⟨trivial, fun h hm n hx => ?_⟩
    rcases hx with hx | ⟨hx, _⟩
    · simp only [List.mem_cons] at hm
      rcases hm with hm | hm | hm
      · subst hm; cases hx
      · subst hm; cases hx
      · have := hA h (by rw [ht]; exact List.mem_cons_of_mem _ hm)
        cases h <;> first | (cases hx; done) | (cases this; done)
    · exact absurd rfl hx
  · intro s t rest hr hA ht _ _
    refine ⟨trivial, fun h hm n hx => ?_⟩
    rcases hx with hx | ⟨hx, _⟩
    · simp only [List.mem_cons] at hm
      rcases hm with hm | hm
      · subst hm; cases hx
      · have := hA h (by rw [ht]; exact List.mem_cons_of_mem _ hm)
        cases h <;> first | (cases hx; done) | (cases this; done)
    · exact absurd rfl hx

/-- A call of pthread_create that ignores the thread never calls post-create. -/
def tokIgn (c : Nat) : Frame → Nat
  | .pc3 c' .. | .pc4 c' .. | .pcSup0 c' .. | .pcSup1 c' .. | .pcSup c' .. | .pc5 c' ..
  | .pcPre c' .. | .mk0 c' .. | .mk1 c' ..
  | .pc6 c' .. | .pcStack c' .. | .pc7 c' .. | .pc8 c' .. | .pcIgn c' .. => if c' = c then 1 else 0
  | _ => 0

theorem oneTok_ign {A : S → Lbl → Prop} (c : Nat) {s : S} (hs : ReachA A s) :
    OneTok (tokIgn c) (fun g => decide (c < g.nextCall))
      (fun g => occurs (Ev.isPostCreate c) g.tr) s := by
  refine oneTok_inv rfl (by simp) rfl ?_ (fun _ => rfl) (fun _ _ => ?_)
    (Nat.le_refl _) (fun _ => ⟨rfl, rfl⟩) (fun _ _ _ => ⟨rfl, ?_⟩) ?_ hs
  · intro f hf
    cases f <;> first | rfl | (simp [Frame.pushable] at hf; done)
  · simp [tokIgn]
  · simp [G.emit, occurs_cons, Ev.isPostCreate]
  · intro g t ok v f g' nx sp h0 h
    cases f <;> fstep_cases h <;>
      simp_all [listInit, G.emit, G.upd, Next.toks, toks, occurs_cons, Ev.isPostCreate, tokIgn]
    all_goals first
      | exact Or.inl rfl
      | exact Or.inl ⟨rfl, by omega⟩
      | (left; omega)
      | (refine ⟨by omega, Or.inl ⟨rfl, by omega⟩⟩; done)
      | (refine ⟨by omega, ?_, Or.inl ⟨rfl, by omega⟩⟩; rfl)
      | (rcases Nat.lt_trichotomy c g.nextCall with h | h | h
         · left; simp [h, Nat.lt_succ_of_lt h, Nat.ne_of_gt h]
         · right; subst h; simp [h0]
         · left; simp [Nat.not_lt.2 (Nat.le_of_lt h), Nat.not_lt.2 h, Nat.ne_of_lt h])

/-- The info in a thread's own record. -/
def InfoF (g : G) (u : Tid) (f : Frame) : Prop :=
  ∀ n, Mine g u n → (f = .tdtor → n = .main) → born g.tr = false → plain u g.tr →
    (g.nodes n).info = (openCalls u g.tr).head?

/-- ... and what it will be in a child. -/
def InfoG (g : G) : Prop :=
  born g.tr = true → plain (mainOf g.tr) g.tr →
    (if g.hasUsed then resetMain g (mainOf g.tr) else g.main).info =
      (openCalls (mainOf g.tr) g.tr).head?

theorem info_keep {s : S} (hr : ReachA Clean s) {t : Tid} {f : Frame} {rest : List Frame} {ok : Bool}
    {v : Nat} {g' : G} {nx : Next} {sp : Option Frame} (ht : s.th t = f :: rest)
    (hf : fstep s.g t ok v f = some (g', nx, sp)) (hF : ∀ u h, h ∈ s.th u → InfoF s.g u h)
    {u : Tid} {h : Frame} (hh : h ∈ s.th u) {n : NodeId}
    (hul : f = .ul1 n → nx = .go [] → u = t → n ≠ .main → False) (hbt : u = t → f ≠ .bt0 n)
    (hm : Mine g' u n) (htd : h = .tdtor → n = .main) (hb : born s.g.tr = false)
    (hp : plain u g'.tr) : (g'.nodes n).info = (openCalls u g'.tr).head? := by
  have hft : f ∈ s.th t := by rw [ht]; exact List.mem_cons_self
  have hne : s.th t ≠ [] := by rw [ht]; simp
  have hm0 : Mine s.g u n := by
    rcases mine_back hf hm with h | ⟨h1, h2⟩
    · exact h
    · exact absurd h1 (hbt h2)
  have h0 := hF u h hh n hm0 htd hb (plain_step hf hp)
  have hone := plain_one (plain_step hf hp)
  have hopen := open_step hf u
  by_cases e1 : u = t ∧ ∃ st ar, f = .pc2 st ar
  · obtain ⟨rfl, st, ar, rfl⟩ := e1
    fstep_cases hf
    · rename_i m hg
      have hg : getTn s.g u = some m := hg
      have := mine_fun hm0 (getTn_mine hr hb hne hg)
      subst this
      simp [G.emit, G.upd, open_cons]
    · rename_i hg
      have hg : getTn s.g u = none := hg
      obtain ⟨m, hm⟩ := reg_getTn hr ht (by simp) rfl ((hp.1 rfl).1 _ _ _ rfl).1
      rw [hg] at hm; cases hm
  by_cases e2 : u = t ∧ ∃ c my, f = .pcPost c my
  · obtain ⟨rfl, c, my, rfl⟩ := e2
    have := mine_fun hm0 (held_inv hr hft rfl)
    subst this
    fstep_cases hf
    have ho : (openCalls u s.g.tr).tail = [] := by
      apply List.eq_nil_of_length_eq_zero
      rw [List.length_tail]; omega
    simp [G.emit, G.upd, open_cons, ho]
  by_cases e3 : u = t ∧ ∃ c st ar, f = .pcIgn c st ar
  · obtain ⟨rfl, c, st, ar, rfl⟩ := e3
    exfalso
    have hz := (oneTok_holder (oneTok_ign c hr) ht (by simp [tokIgn])).1
    have key : ∀ {d : Data}, (u, Ev.postCreate c d) ∈ s.g.tr → False := by
      intro d hd
      have := occurs_pos hd (p := Ev.isPostCreate c) (by simp [Ev.isPostCreate])
      omega
    fstep_cases hf
    · obtain ⟨d, hd⟩ := (hp.1 rfl).2.1 _ rfl
      rcases List.mem_cons.1 hd with e | hd
      · cases e
      · exact key hd
    · obtain ⟨d, hd⟩ := (hp.1 rfl).2.1 _ rfl
      exact key hd
  have ho : openCalls u g'.tr = openCalls u s.g.tr := by
    rcases hopen with k | ⟨k1, k2, _⟩ | ⟨k1, k2 | k2, _⟩
    · exact k
    · exact absurd ⟨k1, k2⟩ e1
    · exact absurd ⟨k1, k2⟩ e2
    · exact absurd ⟨k1, k2⟩ e3
  rw [ho, ← h0]
  rcases info_step hf n with k | ⟨⟨st, ar, k1⟩, k2⟩ | ⟨c, k⟩ | ⟨k, k2⟩ |
    ⟨a, c, my, st, ar, d, k1, k2, k3, k4⟩ | ⟨k1, k2⟩
  · exact k
  · exfalso
    have := mine_inj hr hh htd hm0 hft (by subst k1; simp) (getTn_mine hr hb hne k2)
    exact e1 ⟨this, st, ar, k1⟩
  · exfalso
    have := mine_inj hr hh htd hm0 hft (by subst k; simp) (held_inv hr hft (by subst k; rfl))
    exact e2 ⟨this, c, n, k⟩
  · exfalso
    have hn : n ≠ .main := by
      intro e
      have := (rec_inv hr).2 t f hft
      rw [k, e] at this; exact this rfl
    have hht : h ≠ .tdtor := fun e => hn (htd e)
    obtain ⟨f', hf', j1, j2, j3⟩ := live_claims hr hh hht hm0 hn
    subst k
    have hne := thr_ne_main hr hft (n := n) rfl rfl
    obtain ⟨i1, i2⟩ := claims_excl hr hn hf' j3 hft (Or.inr ⟨hne, rfl⟩)
    exact hul rfl k2 i1 hn
  · exfalso
    have hn : n ≠ .main := by
      rw [← k3]; exact (alloc_ne_main (rec_inv hr).1 k2).1
    have hht : h ≠ .tdtor := fun e => hn (htd e)
    obtain ⟨f', hf', j1, j2, j3⟩ := live_claims hr hh hht hm0 hn
    have h4 := claims_avail hr hn hf' j3
    have h5 := alloc_pos (arr_inv hr) k2
    rw [k3] at h5; omega
  · exfalso
    have := not_resetting hr hft hb
    rw [k2] at this; cases this

theorem slot_gone {s : S} {t : Tid} {n : NodeId} (h1 : s.th t = [.tdtor]) (h2 : Mine s.g t n)
    (h3 : n ≠ .main) : gone s t = true := by
  rcases h2 with ⟨e, _⟩ | ⟨_, _, h2⟩
  · exact absurd e h3
  · cases n with
    | main => exact absurd rfl h3
    | slot a i => simp [gone, h1, h2]

theorem info_fork {s : S} (hr : ReachA Clean s) {t : Tid} {f : Frame} {rest : List Frame}
    (ht : s.th t = f :: rest) (hf : f ≠ .tdtor) (hres : f.resetting = false) {b : Bool}
    (hF : InfoF s.g t f) : InfoG (s.g.emit t (.forked b)) := by
  intro _ hp
  have hmo : mainOf (s.g.emit t (.forked b)).tr = t := rfl
  rw [hmo] at hp ⊢
  have hne : s.th t ≠ [] := by rw [ht]; simp
  have hb := not_born hr ht hres
  obtain ⟨hreg, hcase⟩ := (hp.1 rfl).2.2 b rfl
  obtain ⟨n, hn⟩ := reg_getTn hr ht hf hres hreg
  have hm := getTn_mine hr hb hne hn
  have h0 := hF n hm (fun e => absurd e hf) hb hp.2
  have ho : openCalls t (s.g.emit t (.forked b)).tr = openCalls t s.g.tr :=
    open_skip (by simp) (by simp)
  have hg : getTn (s.g.emit t (.forked b)) t = getTn s.g t := rfl
  rw [ho]
  show (if s.g.hasUsed then resetMain (s.g.emit t (.forked b)) t else s.g.main).info = _
  by_cases e : n = .main
  · subst e
    have h1 : resetMain (s.g.emit t (.forked b)) t = s.g.main := by
      simp only [resetMain, hg, hn, if_true]; rfl
    rw [h1, ← h0]
    split <;> rfl
  · have hu : t ≠ mainOf s.g.tr := by
      rcases hm with ⟨h, _⟩ | ⟨_, h, _⟩
      · exact absurd h e
      · exact h
    have h1 : openCalls t s.g.tr = [] := by
      rcases hcase with h | h
      · exact absurd h hu
      · exact h
    have hus : s.g.hasUsed = true := (born_of_live hr (by rw [ht]; exact List.mem_cons_self) hu).1
    rw [if_pos hus, h1]
    simp only [resetMain, hg, hn, if_neg e]
    rfl

theorem infoS_inv {s : S} (hs : ReachA Clean s) : InfoG s.g ∧ ∀ u h, h ∈ s.th u → InfoF s.g u h := by
  have hunw : ∀ {s : S} {t : Tid}, ReachA Clean s → (∀ u h, h ∈ s.th u → InfoF s.g u h) →
      s.th t ≠ [] → ∀ {l : List Frame}, (∀ h ∈ l, h ∈ s.th t) →
      ∀ h ∈ unwound l, InfoF s.g t h := by
    intro s t hr hF hne l hl h hm n h2 h3 hb hp
    rcases unwound_cases l with e | ⟨f', m, h1, h4, e⟩
    · rw [e, List.mem_singleton] at hm; subst hm
      obtain ⟨f0, r0, e0⟩ := List.exists_cons_of_ne_nil hne
      exact hF t f0 (by rw [e0]; exact List.mem_cons_self) n h2 (fun _ => h3 rfl) hb hp
    · have hf' : f' ≠ .tdtor := by intro e; subst e; cases h4
      exact hF t f' (hl _ h1) n h2 (fun e => absurd e hf') hb hp
  refine frames_invA (A := Clean) (GI := InfoG) (FI := InfoF) (fun h => by cases h) ?_ ?_
    (fun _ h => h) (fun _ _ _ h => h) ?_ ?_ ?_ ?_ hs
  · intro n hm _ _ _
    rcases hm with ⟨e, _⟩ | ⟨_, e, _⟩
    · subst e; rfl
    · exact absurd rfl e
  · intro s t f rest ok v g' nx sp hr hA ht hG hF h
    have hft : f ∈ s.th t := by rw [ht]; exact List.mem_cons_self
    have hmo := mainOf_fstep h
    have hsh := shape_inv hr t
    rw [ht] at hsh
    -- the reset in a child
    have hbornF : born s.g.tr = true → ∀ u n, Mine g' u n → born g'.tr = false → (u = mainOf s.g.tr) →
        plain u g'.tr → (g'.nodes n).info = (openCalls u g'.tr).head? := by
      intro hb u n hm hb' hu hp
      obtain ⟨k1, k2, k3, k4⟩ := birth_step hr ht hb
      subst hu
      have hn : n = .main := by
        rcases hm with ⟨e, _⟩ | ⟨_, e, _⟩
        · exact e
        · rw [hmo] at e; exact absurd rfl e
      subst hn
      have h0 := hG hb (plain_step h hp)
      rw [← k1] at h0 ⊢
      have key : ∀ {e : Ev}, (∀ c st ar, e ≠ .createCall c st ar) → (∀ c, e ≠ .createRet c) →
          openCalls t ((t, e) :: s.g.tr) = openCalls t s.g.tr := fun h1 h2 => open_skip h1 h2
      have hrl : ((resetList s.g t).nodes .main).info = (openCalls t s.g.tr).head? := by
        rw [← h0]
        unfold resetList
        split <;> rfl
      clear h0 hm hp hF hG hsh hft ht hA
      cases f <;> first | (cases k2; done) | skip
      · fstep_cases h
        · rw [hb] at hb'; cases hb'
        · contradiction
        · contradiction
      · fstep_cases h
        simp only [G.emit, G.upd, resetList_tr]
        rw [key (by simp) (by simp)]
        exact hrl
      · fstep_cases h
        simp only [G.emit, G.upd, resetList_tr]
        rw [key (by simp) (by simp)]
        exact hrl
    have hold : ∀ u h', h' ∈ s.th u → (∀ n, f = .ul1 n → nx = .go [] → u = t → n ≠ .main →
          h' = .tdtor) → (u = t → ∀ n, f ≠ .bt0 n) → InfoF g' u h' := by
      intro u h' hm h1 h2 n hmi htd hb' hp
      cases hb : born s.g.tr with
      | true =>
        obtain ⟨k1, _, _, k4⟩ := birth_step hr ht hb
        have hu : u = t := by
          apply Classical.byContradiction
          intro hc
          rw [k4 u hc] at hm; cases hm
        exact hbornF hb u n hmi hb' (by rw [hu]; exact k1) hp
      | false =>
        refine info_keep hr ht h hF hm ?_ (fun e => h2 e n) hmi htd hb hp
        intro e1 e2 e3 e4
        exact e4 (htd (h1 n e1 e2 e3 e4))
    refine ⟨?_, ?_, ?_, ?_, ?_, ?_⟩
    · intro hb' hp
      cases hb : born s.g.tr with
      | false =>
        exfalso
        obtain ⟨es, e1, e2⟩ := fstep_forked h
        rw [e1] at hb'
        cases es with
        | nil => rw [List.map_nil, List.nil_append, hb] at hb'; cases hb'
        | cons x es =>
          have := e2 x List.mem_cons_self
          simp only [List.map_cons, List.cons_append, born] at hb'
          rw [this] at hb'; cases hb'
      | true =>
        have k2 := (birth_step hr ht hb).2.1
        clear hold hbornF hF hsh hft ht hA
        cases f <;> first | (cases k2; done) | skip
        · fstep_cases h
          · exact hG hb hp
          · contradiction
          · contradiction
        · fstep_cases h
          simp only [G.emit, G.upd, resetList_tr] at hb'
          cases hb'
        · fstep_cases h
          simp only [G.emit, G.upd, resetList_tr] at hb'
          cases hb'
    · intro u h' hm hrest
      refine hold u h' hm ?_ ?_
      · intro n e _ eu hn
        have hr' := hrest eu
        subst e
        rw [hsh.2.1 rfl, List.mem_singleton] at hr'
        exact hr'
      · intro eu n e
        have hr' := hrest eu
        subst e
        rw [hsh.1 rfl] at hr'; cases hr'
    · intro e; subst e
      refine hold t f hft (fun _ _ e => by cases e) ?_
      intro _ n e; subst e; fstep_cases h
    · intro l e h' hl n hm htd hb' hp
      subst e
      by_cases eb : ∃ m, f = .bt0 m
      · obtain ⟨m, e⟩ := eb
        subst e
        have hne := thr_ne_main hr hft (n := m) rfl rfl
        have h0 : openCalls t s.g.tr = [] := by
          apply Classical.byContradiction
          intro hc
          rcases plain_reg (plain_step h hp) hc with ⟨k, hk⟩ | hk
          · have h1 := life_linked hr t
            have h2 := toks_mem (tok := tokLink) hft
            have h3 := occursBy_pos hk (p := fun e => e.isLinked || e.isRefused) rfl
            simp only [tokLink] at h2
            omega
          · exact (ever_inv hr).2 t _ hft hne hk
        have h1 := newInfo_inv hr hft (Or.inr ⟨hne, rfl⟩)
        fstep_cases h
        have hn : n = m := by
          rcases hm with ⟨_, e⟩ | ⟨_, _, e⟩
          · exact absurd e hne
          · simpa using e.symm
        subst hn
        show _ = (openCalls t s.g.tr).head?
        rw [h0]
        simpa [G.upd] using h1
      · have hmf : f = .tdtor → n = .main := by
          intro e; subst e
          by_cases hn : n = .main
          · exact hn
          · exfalso
            have hr0 : rest = [] := hsh.1 rfl
            subst hr0
            have hm0 : Mine s.g t n := by
              rcases mine_back h hm with h | ⟨h, _⟩
              · exact h
              · cases h
            have hok := hA.1 (slot_gone ht hm0 hn)
            have := tdtor_new h (by intro e; subst e; cases hl)
            rw [hok] at this; cases this
        refine hold t f hft ?_ (fun _ m e => eb ⟨m, e⟩) n hm hmf hb' hp
        intro _ _ e _ _; injection e with e; subst e; cases hl
    · intro h' e n hm _ _ _
      exfalso
      subst e
      have h1 := (base_inv hr).1.1
      have h2 := (tsd_inv hr).1.1 s.g.nextTid (Nat.le_refl _)
      have hm0 : Mine s.g s.g.nextTid n := by
        rcases mine_back h hm with h | ⟨e, _⟩
        · exact h
        · subst e; fstep_cases h
      rcases hm0 with ⟨_, e⟩ | ⟨_, _, e⟩
      · rw [← e] at h1; omega
      · rw [h2] at e; cases e
    · intro e; subst e
      have e := unwind_kind h
      subst e
      exact hunw hr hF (by rw [ht]; simp) (fun h hm => by rw [ht]; exact List.mem_cons_of_mem _ hm)
  · intro s t i h hr hA _ hne hF hu hgo hp htd n hm _ hb hpl
    obtain ⟨f0, r0, e0⟩ := List.exists_cons_of_ne_nil hne
    have hf0 : f0 ∈ s.th t := by rw [e0]; exact List.mem_cons_self
    refine hF t f0 hf0 n hm (fun hd => ?_) hb hpl
    apply Classical.byContradiction
    intro hn
    subst hd
    have hsh := shape_inv hr t
    rw [e0] at hsh
    have hr0 : r0 = [] := hsh.1 rfl
    subst hr0
    have hg := slot_gone e0 hm hn
    cases i with
    | go ok v => exact hgo ok v rfl
    | unwind => exact hu rfl
    | call a => rw [show gone s t = false from hA] at hg; cases hg
    | deliver => rw [hA.2] at hg; cases hg
    | interrupt => rw [hA.2] at hg; cases hg
  · intro s t hr hA _ hne hF
    exact hunw hr hF hne (fun h hm => hm)
  · intro s t c d rest hr hA ht _ hF
    refine ⟨info_fork hr ht (by simp) rfl (hF t _ (by rw [ht]; exact List.mem_cons_self)), ?_⟩
    intro h _ n _ _ hb
    cases hb
  · intro s t rest hr hA ht _ hF
    refine ⟨info_fork hr ht (by simp) rfl (hF t _ (by rw [ht]; exact List.mem_cons_self)), ?_⟩
    intro h _ n _ _ hb
    cases hb

theorem open_called {u : Tid} {tr : Hist} {c : Nat} (h : c ∈ openCalls u tr) :
    ∃ st ar, (u, Ev.createCall c st ar) ∈ tr := by
  induction tr with
  | nil => cases h
  | cons x tr ih =>
    obtain ⟨t, e⟩ := x
    have back : (∃ st ar, (u, Ev.createCall c st ar) ∈ tr) →
        ∃ st ar, (u, Ev.createCall c st ar) ∈ (t, e) :: tr :=
      fun ⟨st, ar, h⟩ => ⟨st, ar, List.mem_cons_of_mem _ h⟩
    rw [open_cons] at h
    split at h
    · rename_i e1
      split at h
      · rcases List.mem_cons.1 h with e2 | h
        · subst e1; subst e2
          exact ⟨_, _, List.mem_cons_self⟩
        · exact back (ih h)
      · exact back (ih (List.mem_of_mem_tail h))
      · exact back (ih h)
    · exact back (ih h)

theorem info_inv {s : S} (hs : ReachA Clean s) : Always infoSpec s.g.tr := by
  refine glob_inv (A := Clean) (GI := fun g => Always infoSpec g.tr) trivial ?_ (fun _ h => h)
    (fun _ h => ⟨fun _ e => (by cases e), h⟩) hs
  intro s t f rest ok v g' nx sp hr hA ht hG h
  have skip : ∀ {e : Ev} {old : Hist}, (∀ r, e ≠ .gotInfo r) → Always infoSpec old →
      Always infoSpec ((t, e) :: old) := fun h1 h2 => ⟨fun r e => absurd e (h1 r), h2⟩
  by_cases hq : f = .qInfo
  · subst hq
    have hft : .qInfo ∈ s.th t := by rw [ht]; exact List.mem_cons_self
    have hne : s.th t ≠ [] := by rw [ht]; simp
    have hb := not_born hr ht rfl
    have fin : ∀ r, (plain t s.g.tr → r = (openCalls t s.g.tr).head?) →
        Always infoSpec ((t, Ev.gotInfo r) :: s.g.tr) := by
      intro r hmain
      refine ⟨?_, hG⟩
      intro r' e hp
      injection e with e
      subst e
      have hm := hmain hp
      refine ⟨hm, fun c hc => open_called ?_⟩
      rw [hm] at hc
      exact List.mem_of_mem_head? hc
    fstep_cases h
    · rename_i hg
      refine fin _ fun hp => ?_
      have h0 : openCalls t s.g.tr = [] := by
        apply Classical.byContradiction
        intro hc
        have hreg : registered s.g.tr t := by
          rcases plain_reg hp hc with h | h
          · exact Or.inr h
          · left
            apply Classical.byContradiction
            intro hm
            exact (ever_inv hr).2 t _ hft hm h
        obtain ⟨n, hn⟩ := reg_getTn hr ht (by simp) rfl hreg
        rw [hg] at hn; cases hn
      rw [h0]; rfl
    · rename_i n hg
      exact fin _ fun hp =>
        (infoS_inv hr).2 t _ hft n (getTn_mine hr hb hne hg) (fun e => by cases e) hb hp
  · cases f <;> fstep_cases h <;> first
      | exact hG
      | exact absurd rfl hq
      | (refine skip ?_ hG; simp; done)
      | (refine skip ?_ (skip ?_ hG) <;> simp; done)
      | (simp only [G.emit, G.upd, resetList_tr]; refine skip ?_ hG; simp; done)

end Libmonitor.Proc
