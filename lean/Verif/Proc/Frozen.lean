import Verif.Proc.Post
/-!
# The list of threads during exit cleanup
-/

namespace Libmonitor.Proc

/-- The one call that may begin exit cleanup and has not done so. -/
def tokShoot : Frame → Nat
  | .ep2 .. | .epBegin _ | .sd0 | .sd1 | .sd2 => 1
  | _ => 0

theorem oneTok_shoot {A : S → Lbl → Prop} {s : S} (hs : ReachA A s) :
    OneTok tokShoot (fun g => g.cookie) (fun g => occurs Ev.isShootdown g.tr) s := by
  refine oneTok_inv rfl (by simp) rfl ?_ (fun _ => rfl) (fun _ _ => ?_)
    (Nat.le_refl _) (fun _ => ⟨rfl, rfl⟩) (fun _ _ _ => ⟨rfl, ?_⟩) ?_ hs
  · intro f hf
    cases f <;> first | rfl | (simp [Frame.pushable] at hf; done)
  · simp [tokShoot]
  · simp [G.emit, occurs_cons, Ev.isShootdown]
  · intro g t ok v f g' nx sp h0 h
    cases f <;> fstep_cases h <;>
      simp_all [listInit, G.emit, G.upd, Next.toks, toks, occurs_cons, Ev.isShootdown, tokShoot,
        resetList]
    all_goals first
      | exact Or.inl rfl
      | (left; omega)
      | (split <;> simp_all; done)

/-- The frames of exit cleanup after the flag is set. -/
def Frame.shooting : Frame → Bool
  | .sd3 | .sdScan .. | .sdKill .. | .sdScan2 .. | .sdDone _ | .sdMy _ | .fin0 _ .winner | .finCb _ .winner _ => true
  | _ => false

theorem shooting_inv {A : S → Lbl → Prop} {s : S} (hs : ReachA A s) {u : Tid} {f : Frame}
    (hf : f ∈ s.th u) (h : f.shooting = true) : (u, .shootdown) ∈ s.g.tr := by
  revert h
  refine (frames_inv (A := A) (GI := fun _ => True)
    (FI := fun g u f => f.shooting = true → (u, Ev.shootdown) ∈ g.tr) trivial (fun h => by cases h)
    ?_ (fun _ h => h) (fun _ _ _ h => h) ?_ ?_ (fun _ => trivial)
    (fun h1 h2 => List.mem_cons_of_mem _ (h1 h2)) (fun _ => ⟨fun h => (by cases h), fun h => (by cases h)⟩)
    (fun _ h => by cases h) hs).2 u f hf
  · intro s t f rest ok v g' nx sp _ ht _ hF h
    have hmem := mem_of_fstep h
    have hf := hF t f (by rw [ht]; exact List.mem_cons_self)
    refine ⟨trivial, fun u h' hi hs => hmem _ (hi hs), ?_, ?_⟩
    · intro l e h' hm hsh
      by_cases hf1 : f.shooting = true
      · exact hmem _ (hf hf1)
      · clear hF ht hf
        cases f <;> fstep_cases h <;> cases e <;>
          simp only [List.mem_cons, List.not_mem_nil, or_false] at hm <;>
          (try (rcases hm with hm | hm)) <;> (try subst hm) <;> first
          | (cases hsh; done)
          | (cases hm; done)
          | exact List.mem_cons_self
          | exact absurd rfl hf1
          | exact absurd hsh hf1
          | skip
        all_goals
          rename_i src
          first
          | (cases src <;> first | (cases hsh; done) | exact absurd rfl hf1)
          | skip
    · intro h' e hsh
      clear hF ht hf
      cases f <;> fstep_cases h <;> cases e <;> cases hsh
  · intro g t h _ hp hsh
    cases h <;> first | (cases hsh; done) | (simp [Frame.pushable] at hp; done)
  · intro g t f n _ _ hsh
    cases hsh

/-- Exit cleanup is begun once. -/
theorem shootdown_unique {A : S → Lbl → Prop} {s : S} (hs : ReachA A s) {u w : Tid}
    (h1 : (u, .shootdown) ∈ s.g.tr) (h2 : (w, .shootdown) ∈ s.g.tr) : u = w := by
  have h := occurs_of_oneTok (oneTok_shoot hs)
  revert h h1 h2
  generalize s.g.tr = tr
  intro h1 h2 h
  induction tr with
  | nil => cases h1
  | cons x tr ih =>
    have hp : ∀ {v}, (v, Ev.shootdown) ∈ tr → 1 ≤ occurs Ev.isShootdown tr := fun hm =>
      List.countP_pos_iff.2 ⟨_, hm, rfl⟩
    rw [occurs_cons] at h
    rcases List.mem_cons.1 h1 with e1 | e1 <;> rcases List.mem_cons.1 h2 with e2 | e2
    · rw [← e1] at e2; injection e2 with e2; exact e2.symm
    · have := hp e2
      subst e1
      simp only [Ev.isShootdown, if_true] at h; omega
    · have := hp e1
      subst e2
      simp only [Ev.isShootdown, if_true] at h; omega
    · exact ih e1 e2 (by omega)

theorem shoot_new {g g' : G} {t : Tid} {ok : Bool} {v : Nat} {f : Frame} {nx : Next}
    {sp : Option Frame} (h : fstep g t ok v f = some (g', nx, sp)) {w : Tid}
    (hm : (w, .shootdown) ∈ own g'.tr) : (w, .shootdown) ∈ own g.tr ∨ (f = .sd2 ∧ w = t) := by
  cases f <;> fstep_cases h <;> first
    | exact Or.inl hm
    | (simp only [G.emit, G.upd, resetList_tr, own, Ev.isForked, Bool.false_eq_true, if_false,
        List.mem_cons, Prod.mk.injEq, reduceCtorEq, and_false, false_or] at hm
       exact Or.inl hm)
    | (simp only [G.emit, own, Ev.isForked, Bool.false_eq_true, if_false,
        List.mem_cons, Prod.mk.injEq, and_true] at hm
       exact hm.symm.imp_right (fun e => ⟨rfl, e⟩))

/-- Once exit cleanup has begun in this process its flag is set; the list is in use if that was
not done by the initial thread. -/
theorem shoot_used {s : S} (hs : ReachA Clean s) {w : Tid} (hm : (w, .shootdown) ∈ own s.g.tr) :
    s.g.inExit = true ∧ born s.g.tr = false ∧ (w ≠ mainOf s.g.tr → s.g.hasUsed = true) := by
  have hb : born s.g.tr = false := by
    cases hb : born s.g.tr with
    | false => rfl
    | true => rw [own_born hb] at hm; cases hm
  have : (w, Ev.shootdown) ∈ own s.g.tr → s.g.inExit = true ∧
      (w ≠ mainOf s.g.tr → s.g.hasUsed = true) := by
    refine glob_inv (A := Clean) (GI := fun g => (w, Ev.shootdown) ∈ own g.tr → g.inExit = true ∧
        (w ≠ mainOf g.tr → g.hasUsed = true))
      (fun h => by cases h) ?_ (fun _ h => h) (fun _ _ h => by cases h) hs
    intro s t f rest ok v g' nx sp hr hA ht hG h hm
    have hft : f ∈ s.th t := by rw [ht]; exact List.mem_cons_self
    rw [mainOf_fstep h]
    rcases shoot_new h hm with hm | ⟨e1, e2⟩
    · refine ⟨inExit_keep h (hG hm).1, fun hw => ?_⟩
      refine hasUsed_keep ?_ h ((hG hm).2 hw)
      cases hres : f.resetting with
      | false => rfl
      | true =>
        rw [own_born (((base_inv hr).2 t f hft).2.1 hres)] at hm; cases hm
    · subst e1; subst e2
      have := ((base_inv hr).2 w _ hft).1
      fstep_cases h
      exact ⟨rfl, fun hw => (this hw).1⟩
  exact ⟨(this hm).1, hb, (this hm).2⟩

/-- Steps that change the list. -/
theorem list_same {g g' : G} {t : Tid} {ok : Bool} {v : Nat} {f : Frame} {nx : Next}
    {sp : Option Frame} (h : fstep g t ok v f = some (g', nx, sp)) (hr : f.resetting = false)
    (hu : g.hasUsed = true) (hi : g.inExit = true) (h3 : f ≠ .sd3) : g'.list = g.list := by
  cases f <;> first | (simp [Frame.resetting] at hr; done) | skip
  all_goals fstep_cases h <;> first | rfl | (exact absurd rfl h3) | (simp_all; done)

/-- After exit cleanup has begun, steps of other threads keep the list. -/
theorem frozen {s s' : S} (hs : ReachA Clean s) {w t : Tid} {i : Inp}
    (hm : (w, .shootdown) ∈ own s.g.tr) (hne : t ≠ w) (hn : next s (.step t i) = some s') :
    s'.g.list = s.g.list := by
  obtain ⟨hi, hb, hu⟩ := shoot_used hs hm
  have hmv := move_of_next hn
  cases hmv with
  | @go _ f rest ok v r hd ht hf =>
    obtain ⟨g', nx, sp⟩ := r
    have hft : f ∈ s.th t := by rw [ht]; exact List.mem_cons_self
    have hus : s.g.hasUsed = true := by
      by_cases e : t = mainOf s.g.tr
      · exact hu (fun e2 => hne (e.trans e2.symm))
      · exact (((base_inv hs).2 t f hft).1 e).1
    have : g'.list = s.g.list := by
      refine list_same hf (not_resetting hs hft hb) hus hi (fun e => ?_)
      subst e
      exact hne (shootdown_unique hs (shooting_inv hs hft rfl) (List.Sublist.subset (own_sublist _) hm))
    rw [applyRes_g]
    split <;> exact this
  | _ => rfl

end Libmonitor.Proc
