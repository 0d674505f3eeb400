import Verif.Proc.OwnNode
/-!
# The thread named in a record, and who looks at which record
-/

namespace Libmonitor.Proc

/-- The record a step writes to. -/
def writes (g : G) (t : Tid) (ok : Bool) : Frame → Option NodeId
  | .bpReset _ | .rfReset | .bpCb | .sd3 | .pc0 .. => some .main
  | .ep2 _ tn => tn
  | .fin0 n _ | .finCb n _ _ | .ul1 n | .bt0 n | .bt2 n | .btInit n | .bt4 n => some n
  | .pc2 .. | .qBlock _ | .qIgnore _ => getTn g t
  | .mk1 .. => (alloc g ok).map (·.n)
  | .pc6 _ _ n .. => some n
  | .pcPost _ my => some my
  | _ => none

theorem node_keep {g g' : G} {t : Tid} {ok : Bool} {v : Nat} {f : Frame} {nx : Next}
    {sp : Option Frame} (h : fstep g t ok v f = some (g', nx, sp)) {n : NodeId}
    (hn : writes g t ok f ≠ some n) : g'.nodes n = g.nodes n := by
  cases f <;> fstep_cases h <;> first | rfl | skip
  all_goals
    simp only [writes] at hn
    first
    | (have hn2 : ¬ n = _ := fun e => hn (by rw [e])
       first
       | (simp [G.emit, G.upd, listInit, hn2]; done)
       | (simp only [G.emit, G.upd, resetList, hn2, if_false]; split <;> rfl))
    | (rename_i hg
       rw [hg] at hn
       have hn2 : ¬ n = _ := fun e => hn (by rw [e]; rfl)
       simp [G.emit, G.upd, hn2]; done)
    | skip
  · have hn2 : ¬ n = .main := fun e => hn (by rw [e])
    show (if n = .main then _ else (resetList g t).nodes n) = _
    rw [if_neg hn2]; unfold resetList
    split
    · exact if_neg hn2
    · rfl
  · rename_i m hg
    have hn2 : ¬ n = m := fun e => hn (by rw [e]; exact hg)
    simp [G.emit, G.upd, hn2]
  · have hn2 : ¬ n = .main := fun e => hn (by rw [e])
    show (resetList g t).nodes n = _
    unfold resetList
    split
    · exact if_neg hn2
    · rfl
  all_goals
    rename_i m hg
    have hn2 : ¬ n = m := fun e => hn (by rw [e]; exact hg)
    simp [G.emit, G.upd, hn2]

/-- Only these steps change the thread named in a record of a created thread. -/
theorem self_keep {g g' : G} {t : Tid} {ok : Bool} {v : Nat} {f : Frame} {nx : Next}
    {sp : Option Frame} (h : fstep g t ok v f = some (g', nx, sp)) {n : NodeId} (hn : n ≠ .main)
    (h1 : f ≠ .bt0 n) (h2 : f ≠ .ul1 n)
    (h3 : ∀ a c my st ar d, f = .mk1 c my st ar d → alloc g ok = some a → a.n ≠ n) :
    (g'.nodes n).self = (g.nodes n).self ∧ (g'.nodes n).magic = (g.nodes n).magic := by
  by_cases hw : writes g t ok f = some n
  · cases f <;> fstep_cases h <;> first | exact ⟨rfl, rfl⟩ | skip
    all_goals
      simp only [writes] at hw
      first
      | (injection hw with hw
         first
         | exact absurd hw.symm hn
         | (subst hw
            first
            | exact absurd rfl h1
            | exact absurd rfl h2
            | (simp [G.emit, G.upd]; done)))
      | (rename_i hg
         rw [hg] at hw
         injection hw with hw
         first
         | exact absurd hw (h3 _ _ _ _ _ _ rfl hg)
         | (subst hw; simp [G.emit, G.upd]; done))
      | skip
    rename_i m hg
    have : m = n := by
      have : some m = some n := hg.symm.trans hw
      injection this
    subst this
    simp [G.emit, G.upd]
  · rw [node_keep h hw]; exact ⟨rfl, rfl⟩

theorem thr_ne_main {s : S} (hs : ReachA Clean s) {u : Tid} {f : Frame} {n : NodeId}
    (hf : f ∈ s.th u) (hn : f.thr = some n) (ha : f.isBtApp = false) : u ≠ mainOf s.g.tr :=
  (((base_inv hs).2 u f hf).2.2.2 (by rw [hn]; rfl)).resolve_right (by rw [ha]; simp)

/-- A record that some frame owns keeps its thread, except by the owner's first and last step. -/
theorem self_owned {s : S} (hs : ReachA Clean s) {t : Tid} {f : Frame} {rest : List Frame}
    {ok : Bool} {v : Nat} {g' : G} {nx : Next} {sp : Option Frame} (ht : s.th t = f :: rest)
    (h : fstep s.g t ok v f = some (g', nx, sp)) {u : Tid} {f' : Frame} {n : NodeId}
    (hf' : f' ∈ s.th u) (hc : claims s.g u f' n) :
    (u = t ∧ f' = f ∧ (f = .bt0 n ∨ f = .ul1 n)) ∨
      ((g'.nodes n).self = (s.g.nodes n).self ∧ (g'.nodes n).magic = (s.g.nodes n).magic) := by
  have hft : f ∈ s.th t := by rw [ht]; exact List.mem_cons_self
  have hn : n ≠ .main := claims_ne_main hs hf' (hc.imp_right And.right)
  by_cases h1 : f = .bt0 n ∨ f = .ul1 n
  · left
    have hth : f.thr = some n ∧ f.isBtApp = false := by
      rcases h1 with h1 | h1 <;> subst h1 <;> exact ⟨rfl, rfl⟩
    obtain ⟨e1, e2⟩ := claims_excl hs hn hf' hc hft (Or.inr ⟨thr_ne_main hs hft hth.1 hth.2, hth.1⟩)
    exact ⟨e1, e2, h1⟩
  · right
    refine self_keep h hn (fun e => h1 (Or.inl e)) (fun e => h1 (Or.inr e)) ?_
    intro a c my st ar d _ ha e
    have := alloc_pos (arr_inv hs) ha
    rw [e, claims_avail hs hn hf' hc] at this
    omega

theorem claims_fstep {g g' : G} {t : Tid} {ok : Bool} {v : Nat} {f : Frame} {nx : Next}
    {sp : Option Frame} (h : fstep g t ok v f = some (g', nx, sp)) (u : Tid) (f' : Frame)
    (n : NodeId) : claims g' u f' n ↔ claims g u f' n := by
  unfold claims; rw [mainOf_fstep h]

/-- New frames that own a record: from the frame before, or by allocation. -/
theorem claims_new {g g' : G} {t : Tid} {ok : Bool} {v : Nat} {f : Frame} {l : List Frame}
    {sp : Option Frame} (h : fstep g t ok v f = some (g', .go l, sp)) {h' : Frame} (hm : h' ∈ l)
    {n : NodeId} (hc : claims g t h' n) :
    claims g t f n ∨ ∃ c my st ar d, f = .mk1 c my st ar d ∧ h' = .pc6 c my n st ar d := by
  rcases hc with hc | ⟨h1, h2⟩
  · cases f <;> fstep_cases h <;>
      simp only [List.mem_cons, List.not_mem_nil, or_false] at hm <;>
      (try (rcases hm with hm | hm)) <;> (try subst hm) <;>
      first | (cases hc; done) | skip
    all_goals simp only [Frame.newRec, Option.some.injEq] at hc; subst hc
    · exact Or.inr ⟨_, _, _, _, _, rfl, rfl⟩
    · exact Or.inl (Or.inl rfl)
    · exact Or.inl (Or.inl rfl)
  · exact Or.inl (Or.inr ⟨h1, ((tsd_new h hm).2 n h2).2⟩)

/-- Who owns a record is named in it, and it is in use. -/
theorem self_inv {s : S} (hs : ReachA Clean s) {u : Tid} {f : Frame} (hf : f ∈ s.th u)
    {n : NodeId} (hn : claims s.g u f n) : (s.g.nodes n).magic = true ∧
      (f.newRec = none → f ≠ .bt0 n → (s.g.nodes n).self = some u) := by
  refine (frames_invA (A := Clean) (GI := fun _ => True) (FI := fun g u f => ∀ n, claims g u f n →
    (g.nodes n).magic = true ∧ (f.newRec = none → f ≠ .bt0 n → (g.nodes n).self = some u))
    trivial ?_ ?_ (fun _ h => h) (fun _ _ _ h => h) ?_ ?_ ?_ ?_ hs).2 u f hf n hn
  · intro n h; rcases h with h | ⟨_, h⟩ <;> cases h
  · intro s t f rest ok v g' nx sp hr hA ht _ hF h
    have hft : f ∈ s.th t := by rw [ht]; exact List.mem_cons_self
    have hsh := shape_inv hr t
    rw [ht] at hsh
    have hold : ∀ u h', h' ∈ s.th u → (u = t → h' ∈ rest) → ∀ n, claims g' u h' n →
        (g'.nodes n).magic = true ∧ (h'.newRec = none → h' ≠ .bt0 n → (g'.nodes n).self = some u) := by
      intro u h' hm' hor n hc
      rw [claims_fstep h] at hc
      rcases self_owned hr ht h hm' hc with ⟨e1, e2, e3⟩ | ⟨k1, k2⟩
      · subst e2
        have := hor e1
        rcases e3 with e3 | e3 <;> subst e3
        · rw [hsh.1 rfl] at this; cases this
        · rw [hsh.2.1 rfl, List.mem_singleton] at this; cases this
      · rw [k1, k2]; exact hF u h' hm' n hc
    refine ⟨trivial, hold, ?_, ?_, ?_, ?_⟩
    · intro e n hc
      rw [claims_fstep h] at hc
      rcases self_owned hr ht h hft hc with ⟨_, _, e3⟩ | ⟨k1, k2⟩
      · rcases e3 with e3 | e3 <;> subst e3 <;> subst e <;> fstep_cases h
        exact hF t _ hft _ hc
      · rw [k1, k2]; exact hF t f hft n hc
    · intro l e h' hm' n hc
      subst e
      rw [claims_fstep h] at hc
      rcases claims_new h hm' hc with hf | ⟨c, my, st, ar, d, e1, e2⟩
      · obtain ⟨o1, o2⟩ := hF t f hft n hf
        by_cases hbt : f = .bt0 n
        · subst hbt
          fstep_cases h
          simp [G.upd, o1]
        rcases self_owned hr ht h hft hf with ⟨_, _, e3⟩ | ⟨k1, k2⟩
        · rcases e3 with e3 | e3
          · exact absurd e3 hbt
          · subst e3; fstep_cases h <;> cases hm'
        · rw [k1, k2]
          refine ⟨o1, fun h3 h4 => ?_⟩
          have ht' : h'.thr = some n := by
            rcases hc with hc | hc
            · rw [hc] at h3; cases h3
            · exact hc.2
          have hft' := ((tsd_new h hm').2 n ht').2
          exact o2 (by cases f <;> first | rfl | cases hft') hbt
      · subst e1; subst e2
        fstep_cases h
        rw [List.mem_singleton] at hm'
        injection hm' with _ _ hm' _ _ _
        subst hm'
        simp [G.upd, Frame.newRec]
    · intro h' e n hc
      subst e
      have hh : f.newRec = some n ∧ h' = .bt0 n := by
        cases f <;> fstep_cases h <;> rcases hc with hc | ⟨_, hc⟩ <;> first
          | (cases hc; done)
          | (injection hc with hc; subst hc; exact ⟨rfl, rfl⟩)
      obtain ⟨h1, h2⟩ := hh
      subst h2
      rcases self_owned hr ht h hft (Or.inl h1) with ⟨_, _, e3⟩ | ⟨k1, k2⟩
      · rcases e3 with e3 | e3 <;> subst e3 <;> cases h1
      · rw [k2]; exact ⟨(hF t f hft n (Or.inl h1)).1, fun _ h => absurd rfl h⟩
    · intro e h' hm'
      rcases unwound_cases rest with e | ⟨f', m, hf', ha, e⟩
      · rw [e, List.mem_singleton] at hm'; subst hm'
        intro n h; rcases h with h | ⟨_, h⟩ <;> cases h
      · rw [e] at hm'
        rcases List.mem_cons.1 hm' with hm' | hm'
        · subst hm'
          intro n hc
          have hc' : claims g' t f' n := by
            rcases hc with hc | ⟨h1, hc⟩
            · cases hc
            · injection hc with hc; subst hc
              exact Or.inr ⟨h1, (thr_of_armed ha).1⟩
          have := hold t f' (by rw [ht]; exact List.mem_cons_of_mem _ hf') (fun _ => hf') n hc'
          refine ⟨this.1, fun _ _ => this.2 (by cases f' <;> first | rfl | cases ha)
            ((thr_of_armed ha).2 n)⟩
        · rw [List.mem_singleton] at hm'; subst hm'
          intro n h; rcases h with h | ⟨_, h⟩ <;> cases h
  · intro s t i h hr hA _ _ hF _ _ hp _ n hc
    rcases hc with hc | ⟨_, hc⟩ <;> cases h <;> simp [Frame.pushable, Frame.thr, Frame.newRec] at hp hc
  · intro s t hr hA _ hne hF h hm
    rcases unwound_cases (s.th t) with e | ⟨f', m, hf', ha, e⟩
    · rw [e, List.mem_singleton] at hm; subst hm
      intro n h; rcases h with h | ⟨_, h⟩ <;> cases h
    · rw [e] at hm
      rcases List.mem_cons.1 hm with hm | hm
      · subst hm
        intro n hc
        have hc' : claims s.g t f' n := by
          rcases hc with hc | ⟨h1, hc⟩
          · cases hc
          · injection hc with hc; subst hc
            exact Or.inr ⟨h1, (thr_of_armed ha).1⟩
        have := hF t f' hf' n hc'
        refine ⟨this.1, fun _ _ => this.2 (by cases f' <;> first | rfl | cases ha)
          ((thr_of_armed ha).2 n)⟩
      · rw [List.mem_singleton] at hm; subst hm
        intro n h; rcases h with h | ⟨_, h⟩ <;> cases h
  · intro s t c d rest hr hA ht _ hF
    refine ⟨trivial, fun h hm n hc => ?_⟩
    rcases hc with hc | ⟨h1, _⟩
    · rcases List.mem_cons.1 hm with e | hm
      · subst e; cases hc
      · rcases List.mem_cons.1 hm with e | hm
        · subst e; cases hc
        · have := hA h (by rw [ht]; exact List.mem_cons_of_mem _ hm)
          cases h <;> first | (cases hc; done) | (simp [Frame.forkOk, Frame.making] at this; done)
    · exact absurd rfl h1
  · intro s t rest hr hA ht _ hF
    refine ⟨trivial, fun h hm n hc => ?_⟩
    rcases hc with hc | ⟨h1, _⟩
    · rcases List.mem_cons.1 hm with e | hm
      · subst e; cases hc
      · have := hA h (by rw [ht]; exact List.mem_cons_of_mem _ hm)
        cases h <;> first | (cases hc; done) | (simp [Frame.forkOk, Frame.making] at this; done)
    · exact absurd rfl h1

end Libmonitor.Proc
