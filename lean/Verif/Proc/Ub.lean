import Verif.Proc.Frozen
/-!
# The operations on the lists of thread records
-/

namespace Libmonitor.Proc

/-- The one call that may put the initial thread's record on the list and has not done so. -/
def tokPut : Frame → Nat
  | .ep2 .. | .epBegin _ | .sd0 | .sd1 | .sd2 | .sd3 => 1
  | _ => 0

theorem oneTok_put {A : S → Lbl → Prop} {s : S} (hs : ReachA A s) :
    OneTok tokPut (fun g => g.cookie) (fun g => g.handlerOn.toNat) s := by
  refine oneTok_inv rfl (by simp) rfl ?_ (fun _ => rfl) (fun _ _ => ?_)
    (Nat.le_refl _) (fun _ => ⟨rfl, rfl⟩) (fun _ _ _ => ⟨rfl, ?_⟩) ?_ hs
  · intro f hf
    cases f <;> first | rfl | (simp [Frame.pushable] at hf; done)
  · simp [tokPut]
  · simp [G.emit]
  · intro g t ok v f g' nx sp h0 h
    cases f <;> fstep_cases h <;>
      simp_all [listInit, G.emit, G.upd, Next.toks, toks, tokPut, resetList]
    all_goals first
      | exact Or.inl rfl
      | (left; omega)
      | exact Bool.toNat_le _
      | (split <;> simp_all; done)

/-- The initial thread's record is on the list at most once. -/
theorem main_count {A : S → Lbl → Prop} {s : S} (hs : ReachA A s) :
    (s.g.handlerOn = false → NodeId.main ∉ s.g.list) ∧ s.g.list.count .main ≤ 1 := by
  refine glob_inv (A := A) (GI := fun g => (g.handlerOn = false → NodeId.main ∉ g.list) ∧
    g.list.count .main ≤ 1)
    ⟨by simp, by simp⟩ ?_ (fun _ h => h) (fun _ h => h) hs
  intro s t f rest ok v g' nx sp hr hA ht hG h
  have h3 : f = .sd3 → s.g.handlerOn = false := by
    intro e; subst e
    have := (oneTok_holder (oneTok_put hr) ht rfl).1
    simpa using this
  have h2 : ∀ n, f = .bt2 n → n ≠ .main := by
    intro n e; subst e
    exact claims_ne_main hr (by rw [ht]; exact List.mem_cons_self) (Or.inr rfl)
  clear hA hr ht
  cases f <;> fstep_cases h <;> try exact hG
  all_goals simp_all [listInit, G.emit, G.upd, resetList]
  all_goals first
    | (split <;> simp_all; done)
    | skip
  · exact List.count_eq_zero.2 hG.1
  · exact ⟨fun hh hm => hG.1 hh (List.mem_of_mem_erase hm),
      Nat.le_trans ((List.erase_sublist).count_le _) hG.2⟩
  · exact fun _ e => h2 e.symm

theorem lists_live {s : S} (hs : ReachA Clean s) (hb : born s.g.tr = false) (n : NodeId) :
    s.g.list.count n + s.g.free.count n ≤ 1 ∧
      (n ∈ s.g.list ∨ n ∈ s.g.free → unalloc s.g.arr s.g.pos s.g.nArr n = false) := by
  by_cases hn : n = .main
  · subst hn
    have h1 := (main_count hs).2
    have h2 := List.count_eq_zero.2 (rec_inv hs).1
    exact ⟨by omega, fun _ => rfl⟩
  · cases hu : s.g.hasUsed with
    | false =>
      obtain ⟨h1, h2, -⟩ := (base_inv hs).1.2 hu
      have : n ∉ s.g.list := fun h => hn (h1 n h)
      rw [h2, List.count_eq_zero.2 this]
      exact ⟨by simp, fun h => h.elim (fun h => absurd h this) (by simp)⟩
    | true =>
      have h := (new_excl hs hn hu hb).1 0
      unfold availList availRec at h
      refine ⟨by omega, fun hm => ?_⟩
      have : 0 < s.g.list.count n ∨ 0 < s.g.free.count n := by
        rcases hm with hm | hm
        · exact Or.inl (List.count_pos_iff.2 hm)
        · exact Or.inr (List.count_pos_iff.2 hm)
      cases hc : unalloc s.g.arr s.g.pos s.g.nArr n with
      | false => rfl
      | true => rw [one_pos hc] at h; omega

theorem list_reset {g g' : G} {t : Tid} {ok : Bool} {v : Nat} {f : Frame} {nx : Next}
    {sp : Option Frame} (hf : f.resetting = true) (h : fstep g t ok v f = some (g', nx, sp)) :
    (g'.list = g.list ∧ g'.free = g.free) ∨ (g'.list = [] ∧ g'.free = []) := by
  cases f <;> simp only [Frame.resetting, Bool.false_eq_true] at hf <;> fstep_cases h <;>
    first
    | exact Or.inl ⟨rfl, rfl⟩
    | (simp only [G.emit, G.upd, resetList]
       split
       · exact Or.inr ⟨rfl, rfl⟩
       · exact Or.inl ⟨rfl, rfl⟩)

theorem lists_count {s : S} (hs : ReachA Clean s) (n : NodeId) :
    s.g.list.count n + s.g.free.count n ≤ 1 := by
  induction hs with
  | init => simp
  | @next s s' l hr hA hn ih =>
    cases hb : born s'.g.tr with
    | false => exact (lists_live (.next hr hA hn) hb n).1
    | true =>
      have hm := move_of_next hn
      cases hm with
      | @go t f rest ok v r hd ht hf =>
        obtain ⟨g', nx, sp⟩ := r
        have hg : (applyRes s t rest (g', nx, sp)).g.list = g'.list ∧
            (applyRes s t rest (g', nx, sp)).g.free = g'.free ∧
            (applyRes s t rest (g', nx, sp)).g.tr = g'.tr := by
          rw [applyRes_g]; split <;> exact ⟨rfl, rfl, rfl⟩
        rw [hg.2.2] at hb
        rw [hg.1, hg.2.1]
        have e := born_fstep hf hb
        rw [e] at hb
        rcases list_reset (birth_step hr ht hb).2.1 hf with ⟨e1, e2⟩ | ⟨e1, e2⟩
        · rw [e1, e2]; exact ih
        · rw [e1, e2]; simp
      | call => exact ih
      | unwind => exact ih
      | deliver => exact ih
      | interrupt => exact ih
      | fork => exact ih
      | realFork => exact ih

theorem ub_inv {s : S} (hs : ReachA Clean s) : s.g.ub = false := by
  refine glob_inv (A := Clean) (GI := fun g => g.ub = false) rfl ?_ (fun _ h => h) (fun _ h => h) hs
  intro s t f rest ok v g' nx sp hr hA ht hG h
  have hft : f ∈ s.th t := by rw [ht]; exact List.mem_cons_self
  have hmain : f.thr.isSome = true → f.isBtApp = false → t ≠ mainOf s.g.tr := fun h1 h2 =>
    (((base_inv hr).2 t f hft).2.2.2 h1).resolve_right (by rw [h2]; simp)
  have h1 : ∀ n, f = .ul1 n → n ∈ s.g.list := by
    intro n e; subst e
    exact linked_inv hr hft rfl rfl (hmain rfl rfl)
  have h2 : ∀ n, f = .bt2 n → n ∉ s.g.list := by
    intro n e hm; subst e
    exact ((list_excl hr (claims_ne_main hr hft (Or.inr rfl))
      (born_of_live hr hft (hmain rfl rfl)).2 hm).2.2 t _ hft).2 rfl
  clear hA hr ht hmain hft
  cases f <;> fstep_cases h <;> first | exact hG | skip
  all_goals simp_all [G.emit, G.upd, resetList]
  all_goals first
    | (split <;> simp_all; done)
    | skip

end Libmonitor.Proc
