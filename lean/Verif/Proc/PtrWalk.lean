import Verif.Proc.PtrStep
import Verif.Proc.SpecPtr
import Verif.Proc.Broad
import Verif.Proc.Once
/-!
# Walks over the list of threads see the list
-/

namespace Libmonitor.Proc

theorem ReachA.ofWalk {s : S} (hs : ReachA CleanWalk s) : ReachA Clean s := 
  reach_mono (fun _ _ h => h.1) hs

/-- The rest of a walk is the end of the list. -/
def WalkL (g : G) (_ : Tid) (f : Frame) : Prop :=
  ∀ l, f.walk = some l → l <:+ g.list ∧ g.hasUsed = true ∧ born g.tr = false ∧
    (f.scanning = true ∨ f = .sd3 → g.inExit = true)

theorem walkL_none {g : G} {u : Tid} {f : Frame} (h : f.walk = none) : WalkL g u f := by
  intro l hl; rw [h] at hl; cases hl

theorem walk_tok {f : Frame} {l : List NodeId} (h : f.walk = some l) (hs : ¬ (f.scanning = true ∨ f = .sd3))
    (h1 : f ≠ .sd1) : tokLock f = 1 := by
  cases f <;> simp_all [Frame.walk, Frame.scanning, tokLock]

theorem unwound_walk {l : List Frame} {h : Frame} (hm : h ∈ unwound l) : h.walk = none := by
  rcases unwound_cases l with e | ⟨_, n, _, _, e⟩ <;> rw [e] at hm <;> simp at hm
  · subst hm; rfl
  · rcases hm with e | e <;> subst e <;> rfl

/-- Steps that change the list. -/
theorem list_suffix {s : S} (hr : ReachA Clean s) {t : Tid} {f : Frame} {rest : List Frame}
    {ok : Bool} {v : Nat} {g' : G} {nx : Next} {sp : Option Frame} (ht : s.th t = f :: rest)
    (h : fstep s.g t ok v f = some (g', nx, sp)) (hu : s.g.hasUsed = true)
    (hb : born s.g.tr = false) : s.g.list <:+ g'.list ∨ (∃ n, f = .ul1 n) ∧ s.g.inExit = false := by
  have hres : f.resetting = false := by
    cases e : f.resetting with
    | false => rfl
    | true =>
      rw [((base_inv hr).2 t f (by rw [ht]; exact List.mem_cons_self)).2.1 e] at hb; cases hb
  cases f <;> first | (simp [Frame.resetting] at hres; done) | skip
  all_goals fstep_cases h <;> first
    | exact Or.inl (List.suffix_refl _)
    | exact Or.inl (List.suffix_cons _ _)
    | exact Or.inr ⟨⟨_, rfl⟩, by simp_all⟩
    | (simp_all; done)

theorem walks_inv {s : S} (hs : ReachA CleanWalk s) : ∀ u f, f ∈ s.th u → WalkL s.g u f := by
  refine (frames_invA (A := CleanWalk) (GI := fun _ => True) (FI := WalkL) trivial
    (walkL_none rfl) ?_ (fun _ h => h) (fun _ _ _ h => h) ?_ ?_ ?_ ?_ hs).2
  · intro s t f rest ok v g' nx sp hrw hA ht _ hF h
    have hr := hrw.ofWalk
    have hft : f ∈ s.th t := by rw [ht]; exact List.mem_cons_self
    have hnr : born s.g.tr = false → f.resetting = false := by
      intro hb
      cases e : f.resetting with
      | false => rfl
      | true => rw [((base_inv hr).2 t f hft).2.1 e] at hb; cases hb
    have hkeep : ∀ u h', h' ∈ s.th u → (u = t → h' ∈ rest) → WalkL g' u h' := by
      intro u h' hm hur l hl
      obtain ⟨h1, h2, h3, h4⟩ := hF u h' hm l hl
      refine ⟨?_, hasUsed_keep (hnr h3) h h2, born_keep h h3, fun k => inExit_keep h (h4 k)⟩
      rcases list_suffix hr ht h h2 h3 with k | ⟨⟨n, e⟩, hi⟩
      · exact h1.trans k
      · subst e
        by_cases hsc : h'.scanning = true ∨ h' = .sd3
        · rw [h4 hsc] at hi; cases hi
        · by_cases h0 : h' = .sd1
          · subst h0; injection hl with hl; subst hl; exact List.nil_suffix
          · obtain ⟨-, k2, k3⟩ := lock_excl hr hm (walk_tok hl hsc h0)
            by_cases e : t = u
            · subst e
              have := k3 _ rest ht (hur rfl)
              simp [tokLock] at this
            · have := k2 t _ hft e
              simp [tokLock] at this
    refine ⟨trivial, hkeep, ?_, ?_, ?_, ?_⟩
    · intro hd l hl
      obtain ⟨h1, h2, h3, h4⟩ := hF t f hft l hl
      refine ⟨?_, hasUsed_keep (hnr h3) h h2, born_keep h h3, fun k => inExit_keep h (h4 k)⟩
      rcases list_suffix hr ht h h2 h3 with k | ⟨⟨n, e⟩, hi⟩
      · exact h1.trans k
      · subst e; cases hl
    · intro l hnx h' hm
      cases hw : h'.walk with
      | none => exact walkL_none hw
      | some l' =>
        have hFf := hF t f hft
        have hbf : f.resetting = false → born s.g.tr = false := not_born hr ht
        clear hkeep hF hA hr hrw ht hft hnr
        subst hnx
        intro l2 hl2
        rw [hw] at hl2; injection hl2 with hl2; subst hl2
        cases f <;> fstep_cases h <;> simp only [List.mem_cons, List.not_mem_nil, or_false] at hm <;>
          first
          | (cases hm; done)
          | (subst hm; cases hw; done)
          | (rcases hm with hm | hm <;> subst hm <;> cases hw; done)
          | (rcases hm with hm | hm | hm <;> subst hm <;> cases hw; done)
          | skip
        all_goals
          subst hm
          injection hw with hw
          subst hw
        all_goals first
          | (obtain ⟨a, b, c, d⟩ := hFf _ rfl
             refine ⟨?_, b, ?_, ?_⟩
             · first
               | exact a
               | exact List.nil_suffix
               | exact List.suffix_refl _
               | exact (List.suffix_cons _ _).trans a
             · first
               | exact c
               | rfl
             · first
               | exact fun _ => d (Or.inl rfl)
               | exact fun _ => d (Or.inr rfl)
               | exact fun _ => rfl
               | (intro k; simp [Frame.scanning] at k; done))
          | (refine ⟨?_, by assumption, ?_, ?_⟩
             · first
               | exact List.nil_suffix
               | exact List.suffix_refl _
             · first
               | exact hbf rfl
               | rfl
             · intro k; simp [Frame.scanning] at k)
    · intro h' hsp
      refine walkL_none ?_
      clear hkeep hF hA hr hrw ht hft hnr
      cases f <;> fstep_cases h <;> first | (cases hsp; done) | (injection hsp with hsp; subst hsp; rfl)
    · intro _ h' hm
      exact walkL_none (unwound_walk hm)
  · intro s t i h hr hA _ _ _ _ _ hp _
    exact walkL_none (by cases h <;> first | rfl | (simp [Frame.pushable] at hp; done))
  · intro s t _ _ _ _ _ h hm
    exact walkL_none (unwound_walk hm)
  · intro s t c d rest hr hA ht _ hF
    refine ⟨trivial, fun h hm => walkL_none ?_⟩
    rcases List.mem_cons.1 hm with e | hm
    · subst e; rfl
    · rcases List.mem_cons.1 hm with e | hm
      · subst e; rfl
      · exact hA.2 h (by rw [ht]; exact List.mem_cons_of_mem _ hm)
  · intro s t rest hr hA ht _ hF
    refine ⟨trivial, fun h hm => walkL_none ?_⟩
    rcases List.mem_cons.1 hm with e | hm
    · subst e; rfl
    · exact hA.2 h (by rw [ht]; exact List.mem_cons_of_mem _ hm)

open Libmonitor.Queue (Elem Cell Heap)
open Libmonitor.Queue.Spec

theorem reach_of_mem {A : S → Lbl → Prop} {M : Mem} {s : S} {o : Option Heap} (hs : ReachM A M s o) :
    ReachA A s := by
  induction hs with
  | init => exact .init
  | next _ hA hn ih => exact .next ih hA hn

theorem mem_inv {M : Mem} {s : S} {o : Option Heap} (hs : ReachM Clean M s o) :
    ∃ H, o = some H ∧ MemOk M s.g H := by
  induction hs with
  | @init H hst =>
    refine ⟨H, rfl, ⟨fun h => ?_, fun h => ?_, ?_⟩, hst.main, fun k i hk hi => ?_⟩
    · rw [show two M ({} : S).g.list ({} : S).g.free h = [] from two_nil]; exact hst.heads h
    · rw [show two M ({} : S).g.list ({} : S).g.free h = [] from two_nil]; exact List.nodup_nil
    · intro h h' _ e hm
      rw [show two M ({} : S).g.list ({} : S).g.free h = [] from two_nil] at hm; cases hm
    · have : k = 0 := Nat.le_zero.1 hk
      subst this; exact hst.array i hi
  | @next s s' o l hr hA hn ih =>
    obtain ⟨H, rfl, hm⟩ := ih
    have hra := reach_of_mem hr
    have hub := ub_inv (.next hra hA hn)
    have hmv := move_of_next hn
    cases hmv with
    | @go t f rest ok v r hd ht hf =>
      obtain ⟨g', nx, sp⟩ := r
      have hg : (applyRes s t rest (g', nx, sp)).g.list = g'.list ∧
          (applyRes s t rest (g', nx, sp)).g.free = g'.free ∧
          (applyRes s t rest (g', nx, sp)).g.nArr = g'.nArr ∧
          (applyRes s t rest (g', nx, sp)).g.ub = g'.ub := by
        rw [applyRes_g]; split <;> exact ⟨rfl, rfl, rfl, rfl⟩
      obtain ⟨H', e1, e2⟩ := links_ok hra ht hf hm (by rw [← hg.2.2.2]; exact hub)
      refine ⟨H', ?_, e2.same hg.1 hg.2.1 hg.2.2.1⟩
      simp only [Option.bind_some, linksL, ht]
      exact e1
    | call => exact ⟨H, rfl, hm⟩
    | unwind => exact ⟨H, rfl, hm⟩
    | deliver => exact ⟨H, rfl, hm⟩
    | interrupt => exact ⟨H, rfl, hm⟩
    | fork => exact ⟨H, rfl, hm.same rfl rfl rfl⟩
    | realFork => exact ⟨H, rfl, hm.same rfl rfl rfl⟩

theorem chain_next {H : Heap} {c : Cell} {l1 l2 : List Elem} {e : Elem}
    (h : Queue.Spec.Chain H c (l1 ++ e :: l2)) : H.load (.next e) = some l2.head? := by
  induction l1 generalizing c with
  | nil =>
    obtain ⟨_, h2, _, h4⟩ := h
    have : H.cell (.next e) = l2.head? := Queue.chain_first h4
    simp only [Heap.load, Heap.cellOk, h2, if_true, this]
  | cons a l1 ih => exact ih h.2.2.2

/-- Executions by computation. -/
def runM (A : S → Lbl → Prop) [∀ s l, Decidable (A s l)] (M : Mem) (s : S) (o : Option Heap) :
    List Lbl → Option (S × Option Heap)
  | [] => some (s, o)
  | l :: ls =>
    if A s l then (next s l).bind fun s' => runM A M s' (o.bind (linksL M s l)) ls else none

theorem reach_of_runM {A : S → Lbl → Prop} [∀ s l, Decidable (A s l)] {M : Mem} {ls : List Lbl}
    {s : S} {o : Option Heap} {r : S × Option Heap} (hs : ReachM A M s o)
    (h : runM A M s o ls = some r) : ReachM A M r.1 r.2 := by
  induction ls generalizing s o with
  | nil => simp only [runM] at h; injection h with h; exact h ▸ hs
  | cons l ls ih =>
    simp only [runM] at h
    split at h
    · rename_i hA
      simp only [Option.bind_eq_some_iff] at h
      obtain ⟨s1, h1, h2⟩ := h
      exact ih (.next hs hA h1) h2
    · cases h

theorem exists_of_runM {A : S → Lbl → Prop} [∀ s l, Decidable (A s l)] {M : Mem} {H : Heap}
    (hst : Start M H) {ls : List Lbl} {p : S → Heap → Bool}
    (h : ((runM A M {} (some H) ls).map fun r => r.2.any (p r.1)).getD false = true) :
    ∃ s H', ReachM A M s (some H') ∧ p s H' = true := by
  cases hr : runM A M {} (some H) ls with
  | none => rw [hr] at h; exact absurd h (by simp)
  | some r =>
    rw [hr] at h
    obtain ⟨s, o⟩ := r
    have := reach_of_runM (.init hst) hr
    cases o with
    | none => simp at h
    | some H' => exact ⟨s, H', this, by simpa using h⟩

end Libmonitor.Proc
