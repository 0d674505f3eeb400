import Verif.Proc.Life
/-!
# The order of events in the life of a thread: invariant
-/

namespace Libmonitor.Proc

theorem lifeExit_go {g g' : G} {t : Tid} {ok : Bool} {v : Nat} {f : Frame} {nx : Next}
    {sp : Option Frame} (h : fstep g t ok v f = some (g', nx, sp))
    (hG : g.inExit = false → ∀ u, (u, .shootdown) ∉ g.tr) :
    g'.inExit = false → ∀ u, (u, .shootdown) ∉ g'.tr := by
  cases f <;> fstep_cases h <;> first
    | exact hG
    | (intro h; cases h; done)
    | (intro h u hm
       simp [listInit, G.emit, G.upd] at h hm
       exact hG h u hm)

theorem lifeNum_go {g g' : G} {t : Tid} {ok : Bool} {v : Nat} {f : Frame} {nx : Next}
    {sp : Option Frame} (h : fstep g t ok v f = some (g', nx, sp))
    (hG : ∀ u k, (u, .linked k) ∈ g.tr → k ≤ (g.num : Int)) :
    ∀ u k, (u, .linked k) ∈ g'.tr → k ≤ (g'.num : Int) := by
  cases f <;> fstep_cases h <;> first
    | exact hG
    | (intro u k hm
       simp [listInit, G.emit, G.upd] at hm ⊢
       exact hG u k hm)
    | skip
  intro u k hm
  rcases List.mem_cons.1 hm with hm | hm
  · injection hm with _ hm
    injection hm with hm
    exact Int.le_of_eq hm
  · have := hG u k hm
    show k ≤ ((g.num + 1 : Nat) : Int)
    omega

theorem lifeTid_go {g g' : G} {t : Tid} {ok : Bool} {v : Nat} {f : Frame} {nx : Next}
    {sp : Option Frame} (h : fstep g t ok v f = some (g', nx, sp))
    (hG : ∀ u w c st ar o, madeBy g.tr u w c st ar o → u < g.nextTid) :
    ∀ u w c st ar o, madeBy g'.tr u w c st ar o → u < g'.nextTid := by
  cases f <;> fstep_cases h <;> first
    | exact hG
    | (intro u w c st ar o hm
       refine hG u w c st ar o (madeBy_cons hm (by simp)); done)
    | (intro u w c st ar o hm
       simp only [G.emit, G.upd, resetList_tr, resetList_nextTid] at hm ⊢
       refine hG u w c st ar o ?_
       first
       | exact hm
       | exact madeBy_cons hm (by simp)
       | exact madeBy_cons (madeBy_cons hm (by simp)) (by simp))
    | skip
  · intro u w c st ar o hm
    cases o with
    | some d =>
      obtain ⟨n, hm⟩ := hm
      rcases List.mem_cons.1 hm with hm | hm
      · injection hm with _ hm
        injection hm with _ hm
        rw [hm]; exact Nat.lt_succ_self _
      · exact Nat.lt_succ_of_lt (hG u w c st ar (some d) ⟨n, hm⟩)
    | none =>
      rcases List.mem_cons.1 hm with hm | hm
      · injection hm with _ hm; cases hm
      · exact Nat.lt_succ_of_lt (hG u w c st ar none hm)
  · intro u w c st ar o hm
    have hm := madeBy_cons (t := t) (e := .createRet _) hm (by simp)
    cases o with
    | some d =>
      obtain ⟨n, hm⟩ := hm
      rcases List.mem_cons.1 hm with hm | hm
      · injection hm with _ hm; cases hm
      · exact Nat.lt_succ_of_lt (hG u w c st ar (some d) ⟨n, hm⟩)
    | none =>
      rcases List.mem_cons.1 hm with hm | hm
      · injection hm with _ hm
        injection hm with _ hm
        rw [hm]; exact Nat.lt_succ_self _
      · exact Nat.lt_succ_of_lt (hG u w c st ar none hm)

theorem lifeOrder_go {g g' : G} {t : Tid} {ok : Bool} {v : Nat} {f : Frame} {nx : Next}
    {sp : Option Frame} (h : fstep g t ok v f = some (g', nx, sp)) (hG : LifeG g)
    (hF : lifeFrame g t f) : LifeG g' := by
  obtain ⟨h1, h2, h3, h4⟩ := hG
  refine ⟨?_, lifeExit_go h h2, lifeNum_go h h3, lifeTid_go h h4⟩
  have hfr : ∀ w c st ar o, ¬ madeBy g.tr g.nextTid w c st ar o :=
    fun w c st ar o hm => Nat.lt_irrefl _ (h4 _ w c st ar o hm)
  cases f <;> fstep_cases h <;> first
    | exact h1
    | exact ⟨trivial, h1⟩
    | exact ⟨trivial, trivial, h1⟩
    | (simp only [G.emit, G.upd, resetList_tr]; exact ⟨trivial, h1⟩)
    | exact ⟨hF.2, h1⟩
    | exact ⟨⟨_, _, hF⟩, h1⟩
    | exact ⟨⟨hF.1, hF.2.1, hF.2.2, hfr⟩, h1⟩
    | exact ⟨trivial, ⟨hF, hfr⟩, h1⟩
    | exact ⟨⟨_, hF.2⟩, h1⟩
    | exact ⟨Or.inl hF.2, h1⟩
    | exact ⟨Or.inr hF, h1⟩
    | skip
  · refine ⟨⟨by omega, fun u k hm => ?_, h2 (by simpa using ‹¬ g.inExit = true›)⟩, h1⟩
    have := h3 u k hm
    show k < ((g.num + 1 : Nat) : Int)
    omega
  · obtain ⟨_, ⟨u, st, ar, h5⟩ | h5⟩ := hF
    · exact ⟨Or.inl ⟨u, _, st, ar, _, h5⟩, h1⟩
    · exact ⟨Or.inr h5, h1⟩

theorem lifeFrame_new {g g' : G} {t : Tid} {ok : Bool} {v : Nat} {f : Frame} {l : List Frame}
    {sp : Option Frame} (h : fstep g t ok v f = some (g', .go l, sp)) (hF : lifeFrame g t f)
    {h' : Frame} (hm : h' ∈ l) : lifeFrame g' t h' := by
  have hmono : ∀ {e e0 : Tid × Ev}, e ∈ g.tr → e ∈ e0 :: g.tr := List.mem_cons_of_mem _
  cases f <;> fstep_cases h <;>
    simp only [List.mem_cons, List.not_mem_nil, or_false] at hm <;>
    (try (rcases hm with hm | hm)) <;> (try subst hm) <;>
    first
    | trivial
    | exact hF
    | exact hF.1
    | exact lifeFrame_mono (fun e he => by simp [G.emit, G.upd, he]) hF
    | exact List.mem_cons_self
    | skip
  all_goals first
    | (rcases hm with hm | hm <;> subst hm <;> first | trivial | exact List.mem_cons_self)
    | skip
  · obtain ⟨w, c, st, ar, d, h1⟩ := hF
    exact ⟨⟨w, c, st, ar, d, hmono h1⟩, _, List.mem_cons_self⟩
  · obtain ⟨⟨w, c, st, ar, d, h1⟩, _⟩ := hF
    exact ⟨⟨w, c, st, ar, d, hmono h1⟩, _, _, List.mem_cons_self⟩
  · obtain ⟨⟨w, c, st, ar, d, h1⟩, _⟩ := hF
    exact ⟨⟨w, c, st, ar, d, hmono h1⟩, _, _, List.mem_cons_self⟩
  · exact ⟨hmono hF, List.mem_cons_self⟩
  · exact hmono hF.1
  · exact ⟨hmono hF.1, List.mem_cons_self, by assumption⟩
  · exact ⟨hmono hF.2.1, Or.inl ⟨_, _, _, List.mem_cons_self⟩⟩
  · exact ⟨hmono hF.2.1, Or.inr List.mem_cons_self⟩

theorem life_order {A : S → Lbl → Prop} {s : S} (hs : ReachA A s) :
    LifeG s.g ∧ ∀ u h, h ∈ s.th u → lifeFrame s.g u h := by
  refine frames_inv (GI := LifeG) (FI := lifeFrame) ?_ trivial ?_ (fun _ h => h)
    (fun _ _ _ h => lifeFrame_mono (fun _ h => h) h) ?_ ?_ ?_ ?_
    (fun _ => ⟨trivial, trivial⟩) (fun _ => trivial) hs
  · refine ⟨trivial, ?_, ?_, ?_⟩
    · intro _ u h; cases h
    · intro _ u h; cases h
    · intro u w c st ar o h
      cases o with
      | some d => obtain ⟨_, h⟩ := h; cases h
      | none => cases h
  · intro s t f rest ok v g' nx sp _ ht hG hF h
    have hft := hF t f (by rw [ht]; exact List.mem_cons_self)
    refine ⟨lifeOrder_go h hG hft, fun u h' => lifeFrame_mono (mem_of_fstep h), ?_, ?_⟩
    · intro l e h' hm; subst e
      exact lifeFrame_new h hft hm
    · intro h' e; subst e
      cases f <;> fstep_cases h
      · exact ⟨_, _, _, _, _, List.mem_cons_self⟩
      · exact ⟨_, _, List.mem_cons_of_mem _ List.mem_cons_self⟩
  · intro g t h _ hp
    cases h <;> first | trivial | (simp [Frame.pushable] at hp; done)
  · intro g t f n _ _; trivial
  · intro g t real hG
    obtain ⟨h1, h2, h3, h4⟩ := hG
    refine ⟨⟨trivial, h1⟩, ?_, ?_, ?_⟩
    · intro h u hm
      rcases List.mem_cons.1 hm with hm | hm
      · injection hm with _ hm; cases hm
      · exact h2 h u hm
    · intro u k hm
      rcases List.mem_cons.1 hm with hm | hm
      · injection hm with _ hm; cases hm
      · exact h3 u k hm
    · intro u w c st ar o hm
      exact h4 u w c st ar o (madeBy_cons hm (by simp))
  · intro g t real u h hF
    exact lifeFrame_mono (fun e he => List.mem_cons_of_mem _ he) hF

/-- Call number `c` of pthread_create has not made its thread yet. -/
def tokSpawn (c : Nat) : Frame → Nat
  | .pc3 c' .. | .pc4 c' .. | .pcSup0 c' .. | .pcSup1 c' .. | .pcSup c' .. | .pc5 c' ..
  | .pcPre c' .. | .mk0 c' .. | .mk1 c' ..
  | .pc6 c' .. | .pcStack c' .. | .pc7 c' .. | .pcIgn c' .. => if c' = c then 1 else 0
  | _ => 0

/-- ... has not called pre-create. -/
def tokPreC (c : Nat) : Frame → Nat
  | .pc3 c' .. | .pc4 c' .. | .pcSup0 c' .. | .pcSup1 c' .. | .pcSup c' ..
  | .pc5 c' .. => if c' = c then 1 else 0
  | _ => 0

/-- ... has not called post-create. -/
def tokPostC (c : Nat) : Frame → Nat
  | .pc3 c' .. | .pc4 c' .. | .pcSup0 c' .. | .pcSup1 c' .. | .pcSup c' .. | .pc5 c' ..
  | .pcPre c' .. | .mk0 c' .. | .mk1 c' ..
  | .pc6 c' .. | .pcStack c' .. | .pc7 c' .. | .pc8 c' .. => if c' = c then 1 else 0
  | _ => 0

theorem oneTok_spawnCall {A : S → Lbl → Prop} (c : Nat) {s : S} (hs : ReachA A s) :
    OneTok (tokSpawn c) (fun g => decide (c < g.nextCall))
      (fun g => occurs (Ev.isSpawn c) g.tr) s := by
  refine oneTok_inv rfl (by simp) rfl ?_ (fun _ => rfl) (fun _ _ => ?_)
    (Nat.le_refl _) (fun _ => ⟨rfl, rfl⟩) (fun _ _ _ => ⟨rfl, ?_⟩) ?_ hs
  · intro f hf
    cases f <;> first | rfl | (simp [Frame.pushable] at hf; done)
  · simp [tokSpawn]
  · simp [G.emit, occurs_cons, Ev.isSpawn]
  · intro g t ok v f g' nx sp h0 h
    cases f <;> fstep_cases h <;>
      simp_all [listInit, G.emit, G.upd, Next.toks, toks, occurs_cons, Ev.isSpawn, tokSpawn]
    all_goals first
      | exact Or.inl rfl
      | exact Or.inl ⟨rfl, by omega⟩
      | (left; omega)
      | (refine ⟨by omega, Or.inl ⟨rfl, by omega⟩⟩; done)
      | (refine ⟨by omega, ?_, Or.inl ⟨rfl, by omega⟩⟩; rfl)
      | (rcases Nat.lt_trichotomy c g.nextCall with h | h | h
         · left; simp [h, Nat.lt_succ_of_lt h, Nat.ne_of_gt h]
         · right; subst h; simp [h0]
         · left; simp [Nat.not_lt.2 (Nat.le_of_lt h), Nat.not_lt.2 h, Nat.ne_of_lt h])

theorem oneTok_preCreate {A : S → Lbl → Prop} (c : Nat) {s : S} (hs : ReachA A s) :
    OneTok (tokPreC c) (fun g => decide (c < g.nextCall))
      (fun g => occurs (Ev.isPreCreate c) g.tr) s := by
  refine oneTok_inv rfl (by simp) rfl ?_ (fun _ => rfl) (fun _ _ => ?_)
    (Nat.le_refl _) (fun _ => ⟨rfl, rfl⟩) (fun _ _ _ => ⟨rfl, ?_⟩) ?_ hs
  · intro f hf
    cases f <;> first | rfl | (simp [Frame.pushable] at hf; done)
  · simp [tokPreC]
  · simp [G.emit, occurs_cons, Ev.isPreCreate]
  · intro g t ok v f g' nx sp h0 h
    cases f <;> fstep_cases h <;>
      simp_all [listInit, G.emit, G.upd, Next.toks, toks, occurs_cons, Ev.isPreCreate, tokPreC]
    all_goals first
      | exact Or.inl rfl
      | exact Or.inl ⟨rfl, by omega⟩
      | (left; omega)
      | (refine ⟨by omega, Or.inl ⟨rfl, by omega⟩⟩; done)
      | (refine ⟨by omega, ?_, Or.inl ⟨rfl, by omega⟩⟩; rfl)
      | (rcases Nat.lt_trichotomy c g.nextCall with h | h | h
         · left; simp [h, Nat.lt_succ_of_lt h, Nat.ne_of_gt h]
         · right; subst h; simp [h0]
         · left; simp [Nat.not_lt.2 (Nat.le_of_lt h), Nat.not_lt.2 h, Nat.ne_of_lt h])

theorem oneTok_postCreate {A : S → Lbl → Prop} (c : Nat) {s : S} (hs : ReachA A s) :
    OneTok (tokPostC c) (fun g => decide (c < g.nextCall))
      (fun g => occurs (Ev.isPostCreate c) g.tr) s := by
  refine oneTok_inv rfl (by simp) rfl ?_ (fun _ => rfl) (fun _ _ => ?_)
    (Nat.le_refl _) (fun _ => ⟨rfl, rfl⟩) (fun _ _ _ => ⟨rfl, ?_⟩) ?_ hs
  · intro f hf
    cases f <;> first | rfl | (simp [Frame.pushable] at hf; done)
  · simp [tokPostC]
  · simp [G.emit, occurs_cons, Ev.isPostCreate]
  · intro g t ok v f g' nx sp h0 h
    cases f <;> fstep_cases h <;>
      simp_all [listInit, G.emit, G.upd, Next.toks, toks, occurs_cons, Ev.isPostCreate, tokPostC]
    all_goals first
      | exact Or.inl rfl
      | exact Or.inl ⟨rfl, by omega⟩
      | (left; omega)
      | (refine ⟨by omega, Or.inl ⟨rfl, by omega⟩⟩; done)
      | (refine ⟨by omega, ?_, Or.inl ⟨rfl, by omega⟩⟩; rfl)
      | (rcases Nat.lt_trichotomy c g.nextCall with h | h | h
         · left; simp [h, Nat.lt_succ_of_lt h, Nat.ne_of_gt h]
         · right; subst h; simp [h0]
         · left; simp [Nat.not_lt.2 (Nat.le_of_lt h), Nat.not_lt.2 h, Nat.ne_of_lt h])

theorem occurs_of_oneTok {tok : Frame → Nat} {flag : G → Bool} {p : Ev → Bool} {s : S}
    (h : OneTok tok flag (fun g => occurs p g.tr) s) : occurs p s.g.tr ≤ 1 := by
  obtain ⟨h0, h2⟩ := h
  cases hc : flag s.g with
  | false => have := (h0 hc).1; simp only at this; omega
  | true => obtain ⟨w, _, h⟩ := h2 hc; simp only at h; omega

end Libmonitor.Proc
