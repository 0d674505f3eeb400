import Verif.MpiC.Lemmas
/-!
# Where published values come from
-/

namespace Libmonitor.MpiC

def Frame.src (tr : List (Tid × Ev)) (t : Tid) : Frame → Prop
  | .sm0 a b | .sm1 a b | .sm2 a b => ∃ ok, (t, .known ok a b) ∈ tr
  | .ss0 a b => Source tr t a b
  | f => f.isCall .init = true → ∃ u w, (u, .enter .init w) ∈ tr

def GSrc (g : G) : Prop :=
  (∀ t a b, (t, .publish a b) ∈ g.tr → Source g.tr t a b) ∧
  (g.initCount ≠ 0 ∨ g.maxInit ≠ 0 → ∃ u w, (u, .enter .init w) ∈ g.tr)

theorem source_mono {tr tr' : List (Tid × Ev)} (h : ∀ x ∈ tr, x ∈ tr') {t : Tid} {a b : Int}
    (hs : Source tr t a b) : Source tr' t a b := by
  rcases hs with hs | ⟨⟨ok, hs⟩, u, w, hw⟩
  · exact .inl (h _ hs)
  · exact .inr ⟨⟨ok, h _ hs⟩, u, w, h _ hw⟩

theorem src_mono {tr tr' : List (Tid × Ev)} (h : ∀ x ∈ tr, x ∈ tr') {t : Tid} {f : Frame}
    (hs : f.src tr t) : f.src tr' t := by
  cases f with
  | ss0 => exact source_mono h hs
  | sm0 | sm1 | sm2 => obtain ⟨ok, hs⟩ := hs; exact ⟨ok, h _ hs⟩
  | _ => intro hc; obtain ⟨u, w, hw⟩ := hs hc; exact ⟨u, w, h _ hw⟩

theorem src_other {tr : List (Tid × Ev)} {t : Tid} {f : Frame} (h : f.isCall .init = false)
    (h2 : match f with | .sm0 .. | .sm1 .. | .sm2 .. | .ss0 .. => False | _ => True) : f.src tr t := by
  cases f <;> first | exact h2.elim | (intro hc; rw [h] at hc; cases hc)

/-- A step of the innermost call. -/
theorem src_go {g g' : G} {t : Tid} {a : Option Int} {b : Int} {f : Frame} {fs : List Frame}
    (hG : GSrc g) (hF : f.src g.tr t) (hf : fstep g t a b f = some (g', fs)) :
    GSrc g' ∧ (∀ x ∈ g.tr, x ∈ g'.tr) ∧ ∀ x ∈ fs, x.src g'.tr t := by
  have keep : ∀ e, (∀ a b, e ≠ Ev.publish a b) → GSrc (g.log t e) := fun e he => by
    refine ⟨fun u a b hu => ?_, fun h => ?_⟩
    · rcases List.mem_cons.1 hu with e2 | hu
      · cases e2; exact absurd rfl (he a b)
      · exact source_mono (fun _ h => List.mem_cons_of_mem _ h) (hG.1 u a b hu)
    · obtain ⟨u, w, hw⟩ := hG.2 h
      exact ⟨u, w, List.mem_cons_of_mem _ hw⟩
  have more : ∀ e, ∀ x ∈ g.tr, x ∈ (g.log t e).tr := fun e x hx => List.mem_cons_of_mem _ hx
  have same : ∀ x ∈ g.tr, x ∈ g.tr := fun _ h => h
  cases f with
  | app => simp [fstep] at hf
  | store k w up v =>
    simp only [fstep, Option.some.injEq, Prod.mk.injEq] at hf
    obtain ⟨rfl, rfl⟩ := hf
    refine ⟨⟨fun u a b hu => ?_, fun h => ?_⟩, fun x hx => by rw [tr_set]; exact hx, fun x hx => ?_⟩
    · rw [tr_set] at hu ⊢; exact hG.1 u a b hu
    · rw [tr_set]
      cases k with
      | init => exact hF rfl
      | fini => exact hG.2 h
    · rw [tr_set]
      cases k <;> rw [List.mem_singleton.1 hx]
      · exact fun _ => hF rfl
      · intro hc; cases hc
  | ss0 sz rk =>
    simp only [fstep] at hf
    split at hf <;> simp only [Option.some.injEq, Prod.mk.injEq] at hf <;> obtain ⟨rfl, rfl⟩ := hf
    · refine ⟨⟨fun u a b hu => ?_, fun h => ?_⟩, more _, fun x hx => ?_⟩
      · rcases List.mem_cons.1 hu with e2 | hu
        · cases e2; exact source_mono (more _) hF
        · exact source_mono (more _) (hG.1 u a b hu)
      · obtain ⟨u, w, hw⟩ := hG.2 h
        exact ⟨u, w, List.mem_cons_of_mem _ hw⟩
      · rw [List.mem_singleton.1 hx]; intro hc; cases hc
    · exact ⟨hG, same, by simp⟩
  | setMax w up c =>
    simp only [fstep, Option.some.injEq, Prod.mk.injEq] at hf
    obtain ⟨rfl, rfl⟩ := hf
    refine ⟨⟨hG.1, fun _ => hF rfl⟩, same, fun x hx => ?_⟩
    rw [List.mem_singleton.1 hx]; exact fun _ => hF rfl
  | sm0 sz rk =>
    simp only [fstep, Option.some.injEq, Prod.mk.injEq] at hf
    obtain ⟨rfl, rfl⟩ := hf
    refine ⟨hG, same, fun x hx => ?_⟩
    split at hx
    · rw [List.mem_singleton.1 hx]; exact hF
    · simp at hx
  | sm1 sz rk =>
    simp only [fstep, Option.some.injEq, Prod.mk.injEq] at hf
    obtain ⟨rfl, rfl⟩ := hf
    refine ⟨hG, same, fun x hx => ?_⟩
    split at hx
    · rw [List.mem_singleton.1 hx]; exact hF
    · simp at hx
  | sm2 sz rk =>
    simp only [fstep, Option.some.injEq, Prod.mk.injEq] at hf
    obtain ⟨rfl, rfl⟩ := hf
    refine ⟨hG, same, fun x hx => ?_⟩
    split at hx
    · rename_i hm
      rcases List.mem_cons.1 hx with e | hx
      · subst e; exact .inr ⟨hF, hG.2 (.inr (by omega))⟩
      · rw [List.mem_singleton.1 hx]; intro hc; cases hc
    · simp at hx
  | cr2 null size rank old =>
    simp only [fstep] at hf
    split at hf <;> simp only [Option.some.injEq, Prod.mk.injEq] at hf <;> obtain ⟨rfl, rfl⟩ := hf
    · exact ⟨keep _ (by simp), more _, by simp⟩
    · refine ⟨keep _ (by simp), more _, fun x hx => ?_⟩
      rw [List.mem_singleton.1 hx]; exact ⟨_, List.mem_cons_self⟩
  | sm3 | ss1 | ss2 | ss3 | cr0 | cr1 =>
    simp only [fstep, Option.some.injEq, Prod.mk.injEq] at hf
    obtain ⟨rfl, rfl⟩ := hf
    refine ⟨hG, same, fun x hx => ?_⟩
    simp only [List.mem_cons, List.not_mem_nil, or_false] at hx
    first
    | done
    | exact hx.elim
    | (subst hx; intro hc; cases hc; done)
    | (rcases hx with e | e <;> subst e <;> intro hc <;> cases hc)
  | cmp w up =>
    simp only [fstep, Option.some.injEq, Prod.mk.injEq] at hf
    obtain ⟨rfl, rfl⟩ := hf
    refine ⟨hG, same, fun x hx => ?_⟩
    rw [List.mem_singleton.1 hx]
    split <;> exact fun _ => hF rfl
  | _ =>
    simp only [fstep] at hf
    (repeat' split at hf) <;> simp only [Option.some.injEq, Prod.mk.injEq] at hf <;>
      obtain ⟨rfl, rfl⟩ := hf <;>
      refine ⟨?_, ?_, ?_⟩ <;>
      first
      | exact hG
      | (refine keep _ ?_; simp; done)
      | exact same
      | exact more _
      | (intro x hx; cases hx; done)
      | (intro x hx
         simp only [List.mem_cons, List.not_mem_nil, or_false] at hx
         subst hx; intro hc; obtain ⟨u, w, hw⟩ := hF hc
         first | exact ⟨u, w, hw⟩ | exact ⟨u, w, List.mem_cons_of_mem _ hw⟩)
      | (intro x hx
         simp only [List.mem_cons, List.not_mem_nil, or_false] at hx
         rcases hx with e | e
         · subst e; intro hc; cases hc
         · subst e; intro hc; obtain ⟨u, w, hw⟩ := hF hc
           exact ⟨u, w, List.mem_cons_of_mem _ hw⟩)

theorem src_inv {A : S → Lbl → Prop} {s : S} (h : ReachA A s) :
    GSrc s.g ∧ ∀ t, ∀ f ∈ s.th t, f.src s.g.tr t := by
  induction h with
  | init =>
    refine ⟨⟨(fun _ _ _ h => by cases h), (fun h => by simp at h)⟩, fun t f hf => ?_⟩
    rw [List.mem_singleton.1 hf]; intro hc; cases hc
  | @step s s' l _ _ hn ih =>
    obtain ⟨hG, hF⟩ := ih
    obtain ⟨t, i⟩ := l
    have put : ∀ (g : G) (new rest : List Frame), (∀ f ∈ rest, f ∈ s.th t) → GSrc g →
        (∀ x ∈ s.g.tr, x ∈ g.tr) → (∀ x ∈ new, x.src g.tr t) →
        GSrc g ∧ ∀ u, ∀ f ∈ (if u = t then new ++ rest else s.th u), f.src g.tr u := by
      intro g new rest hr h1 h2 h3
      refine ⟨h1, fun u f hf => ?_⟩
      split at hf
      · rename_i e; subst e
        rcases List.mem_append.1 hf with hf | hf
        · exact h3 f hf
        · exact src_mono h2 (hF u f (hr f hf))
      · exact src_mono h2 (hF u f hf)
    have keep : ∀ e, (∀ a b, e ≠ Ev.publish a b) → GSrc (s.g.log t e) := fun e he => by
      refine ⟨fun u a b hu => ?_, fun h => ?_⟩
      · rcases List.mem_cons.1 hu with e2 | hu
        · cases e2; exact absurd rfl (he a b)
        · exact source_mono (fun _ h => List.mem_cons_of_mem _ h) (hG.1 u a b hu)
      · obtain ⟨u, w, hw⟩ := hG.2 h
        exact ⟨u, w, List.mem_cons_of_mem _ hw⟩
    have more : ∀ e, ∀ x ∈ s.g.tr, x ∈ (s.g.log t e).tr := fun e x hx => List.mem_cons_of_mem _ hx
    cases i with
    | go a b =>
      simp only [next] at hn
      cases hst : s.th t with
      | nil => simp [hst] at hn
      | cons f rest =>
        simp only [hst, Option.map_eq_some_iff] at hn
        obtain ⟨⟨g, fs⟩, hf, rfl⟩ := hn
        obtain ⟨h1, h2, h3⟩ := src_go hG (hF t f (by rw [hst]; exact List.mem_cons_self)) hf
        exact put g fs rest (fun x hx => by rw [hst]; exact List.mem_cons_of_mem _ hx) h1 h2 h3
    | call a =>
      simp only [next] at hn
      cases hst : s.th t with
      | nil => simp [hst] at hn
      | cons f rest =>
        rw [hst] at hn
        cases f <;> simp only [Option.some.injEq, reduceCtorEq] at hn
        subst hn
        have hr : ∀ x ∈ Frame.app :: rest, x ∈ s.th t := fun x hx => by rw [hst]; exact hx
        cases a with
        | init w =>
          exact put _ _ _ hr (keep _ (by simp)) (more _) fun x hx => by
            rw [List.mem_singleton.1 hx]; exact fun _ => ⟨t, w, List.mem_cons_self⟩
        | fini w =>
          exact put _ _ _ hr (keep _ (by simp)) (more _) fun x hx => by
            rw [List.mem_singleton.1 hx]; intro hc; cases hc
        | commRank w null =>
          exact put _ _ _ hr hG (fun _ h => h) fun x hx => by
            rw [List.mem_singleton.1 hx]; intro hc; cases hc
        | setSizeRank size rank =>
          exact put _ _ _ hr (keep _ (by simp)) (more _) fun x hx => by
            rw [List.mem_singleton.1 hx]; exact .inl List.mem_cons_self
        | getSize => exact put _ _ _ hr (keep _ (by simp)) (more _) (by simp [enter])
        | getRank => exact put _ _ _ hr (keep _ (by simp)) (more _) (by simp [enter])
    | back =>
      simp only [next] at hn
      cases hst : s.th t with
      | nil => simp [hst] at hn
      | cons f rest =>
        rw [hst] at hn
        cases f <;> try cases hn
        cases rest with
        | nil => simp at hn
        | cons f rest =>
          simp only [Option.some.injEq] at hn
          subst hn
          exact put s.g [] _ (fun x hx => by rw [hst]; exact List.mem_cons_of_mem _ hx) hG
            (fun _ h => h) (by simp)
    | interrupt =>
      simp only [next, Option.some.injEq] at hn
      subst hn
      exact put s.g [.app] (s.th t) (fun _ h => h) hG (fun _ h => h) fun x hx => by
        rw [List.mem_singleton.1 hx]; intro hc; cases hc
    | unwind =>
      simp only [next, Option.some.injEq] at hn
      subst hn
      exact put s.g [.app] [] (by simp) hG (fun _ h => h) fun x hx => by
        rw [List.mem_singleton.1 hx]; intro hc; cases hc

end Libmonitor.MpiC
