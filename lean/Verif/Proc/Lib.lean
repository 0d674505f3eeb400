import Verif.Proc.Start
/-!
# The library callbacks (main.c:227-249): invariants
-/

namespace Libmonitor.Proc

theorem oneTok_initLib {A : S → Lbl → Prop} {s : S} (hs : ReachA A s) :
    OneTok (fun _ => 0) (·.beginLibRun) (fun g => occurs Ev.isInitLibrary g.tr) s := by
  refine oneTok_inv rfl rfl rfl (fun _ _ => rfl) (fun _ => rfl) (fun _ _ => Nat.le_refl _)
    (Nat.le_refl _) (fun _ => ⟨rfl, rfl⟩) (fun _ _ _ => ⟨rfl, ?_⟩) ?_ hs
  · simp [G.emit, occurs_cons, Ev.isInitLibrary]
  · intro g t ok v f g' nx sp h0 h
    cases f <;> fstep_cases h <;>
      simp_all [listInit, G.emit, G.upd, Next.toks, toks, occurs_cons, Ev.isInitLibrary]

/-- No thread is in the fini-library callback or going to call init-process. -/
def libIdle (s : S) : Prop :=
  ∀ u, u < s.g.nextTid → ∀ f ∈ s.th u, f ≠ .elCb ∧ f.pendingInit = false

instance (s : S) : Decidable (libIdle s) := by unfold libIdle; infer_instance

/-- Executions in which monitor_end_library_fcn is entered only after the process has begun and
while no other call of it is in progress, and the fini-library callback is not left by the end of
its thread. -/
def QuietLib (s : S) : Lbl → Prop
  | .step t (.go _ _) =>
    match s.th t with
    | .el0 :: _ => s.g.initCalled = true ∧ libIdle s
    | .px0 :: rest => .elCb ∉ rest
    | .px1 :: rest => .elCb ∉ rest
    | _ => True
  | .step t .unwind => .elCb ∉ s.th t
  | _ => True

instance (s : S) (l : Lbl) : Decidable (QuietLib s l) := by
  unfold QuietLib
  split
  · split <;> infer_instance
  · infer_instance
  · infer_instance

def finiLibs (g : G) : Nat := occurs Ev.isFiniLibrary (own g.tr)

def LibOk (s : S) : Prop :=
  finiLibs s.g = 0 ∨
  (finiLibs s.g = 1 ∧ s.g.initCalled = true ∧ (∀ u, ∀ f ∈ s.th u, f.pendingInit = false) ∧
    (s.g.finiLibCalled = true ∨ ∃ u, .elCb ∈ s.th u))

/-- Steps other than those of fini-library. -/
theorem lib_go {g g' : G} {t : Tid} {ok : Bool} {v : Nat} {f : Frame} {nx : Next}
    {sp : Option Frame} (h1 : f ≠ .el0) (h : fstep g t ok v f = some (g', nx, sp)) :
    finiLibs g' = finiLibs g := by
  cases f <;> fstep_cases h <;> first
    | exact absurd rfl h1
    | rfl
    | simp [finiLibs, own, G.emit, G.upd, Ev.isForked, occurs_cons, Ev.isFiniLibrary]

theorem lib_go' {g g' : G} {t : Tid} {ok : Bool} {v : Nat} {f : Frame} {nx : Next}
    {sp : Option Frame} (hi : g.initCalled = true) (hp : f.pendingInit = false)
    (h : fstep g t ok v f = some (g', nx, sp)) :
    g'.initCalled = true ∧ (g.finiLibCalled = true → g'.finiLibCalled = true) ∧
      (f = .elCb → g'.finiLibCalled = true) ∧
      (∀ l, nx = .go l → ∀ f' ∈ l, f'.pendingInit = false) ∧
      (∀ f0, sp = some f0 → f0.pendingInit = false) ∧
      (nx = .unwind → f = .px0 ∨ f = .px1) := by
  cases f <;> first | (simp [Frame.pendingInit] at hp; done) | skip
  all_goals fstep_cases h <;> simp_all [listInit, G.emit, G.upd, Frame.pendingInit]

theorem pushable_pending {f : Frame} (h : f.pushable = true) : f.pendingInit = false := by
  cases f <;> first | rfl | (simp [Frame.pushable] at h; done) | skip
  rename_i b d
  cases b
  · rfl
  · cases h

theorem lib_inv {s : S} (hs : ReachA QuietLib s) : LibOk s := by
  induction hs with
  | init => exact Or.inl rfl
  | @next s s' l hr hA hn ih =>
    have hm := move_of_next hn
    cases hm with
    | @fork t c d rest hd ht => exact Or.inl rfl
    | @realFork t rest hd ht => exact Or.inl rfl
    | @call t f rest a hd ht hf =>
      refine ih.imp id ?_
      rintro ⟨a1, a2, a3, a4⟩
      refine ⟨a1, a2, fun u f' hm => ?_, a4.imp id ?_⟩
      · rcases mem_setTh hm with ⟨e, hm⟩ | ⟨_, hm⟩
        · rcases List.mem_append.1 hm with hm | hm
          · exact pushable_pending (api_pushable hm)
          · exact a3 t f' (by rw [ht]; exact hm)
        · exact a3 u f' hm
      · rintro ⟨u, hu⟩
        refine ⟨u, ?_⟩
        show _ ∈ setTh s.th t _ u
        by_cases e : u = t
        · subst e; rw [setTh_self, ← ht]; exact List.mem_append_right _ hu
        · rw [setTh_ne _ _ e]; exact hu
    | @unwind t f rest hd ht hf =>
      refine ih.imp id ?_
      rintro ⟨a1, a2, a3, a4⟩
      refine ⟨a1, a2, fun u f' hm => ?_, a4.imp id ?_⟩
      · rcases mem_setTh hm with ⟨e, hm⟩ | ⟨_, hm⟩
        · rcases unwound_cases (f :: rest) with h | ⟨_, n, _, _, h⟩ <;> rw [h] at hm <;>
            simp only [List.mem_cons, List.not_mem_nil, or_false] at hm
          · subst hm; rfl
          · rcases hm with hm | hm <;> subst hm <;> rfl
        · exact a3 u f' hm
      · rintro ⟨u, hu⟩
        refine ⟨u, ?_⟩
        show _ ∈ setTh s.th t _ u
        by_cases e : u = t
        · subst e; exact absurd hu hA
        · rw [setTh_ne _ _ e]; exact hu
    | @deliver t f rest hd ht hon hh =>
      refine ih.imp id ?_
      rintro ⟨a1, a2, a3, a4⟩
      refine ⟨a1, a2, fun u f' hm => ?_, a4.imp id ?_⟩
      · rcases mem_setTh hm with ⟨e, hm⟩ | ⟨_, hm⟩
        · rcases List.mem_cons.1 hm with hm | hm
          · subst hm; rfl
          · exact a3 t f' (by rw [ht]; exact hm)
        · exact a3 u f' hm
      · rintro ⟨u, hu⟩
        refine ⟨u, ?_⟩
        show _ ∈ setTh s.th t _ u
        by_cases e : u = t
        · subst e; rw [setTh_self, ← ht]; exact List.mem_cons_of_mem _ hu
        · rw [setTh_ne _ _ e]; exact hu
    | @interrupt t f rest hd ht =>
      refine ih.imp id ?_
      rintro ⟨a1, a2, a3, a4⟩
      refine ⟨a1, a2, fun u f' hm => ?_, a4.imp id ?_⟩
      · rcases mem_setTh hm with ⟨e, hm⟩ | ⟨_, hm⟩
        · rcases List.mem_cons.1 hm with hm | hm
          · subst hm; rfl
          · exact a3 t f' (by rw [ht]; exact hm)
        · exact a3 u f' hm
      · rintro ⟨u, hu⟩
        refine ⟨u, ?_⟩
        show _ ∈ setTh s.th t _ u
        by_cases e : u = t
        · subst e; rw [setTh_self, ← ht]; exact List.mem_cons_of_mem _ hu
        · rw [setTh_ne _ _ e]; exact hu
    | @go t f rest ok v r hd ht hf =>
      obtain ⟨g', nx, sp⟩ := r
      have hg : finiLibs (applyRes s t rest (g', nx, sp)).g = finiLibs g' ∧
          (applyRes s t rest (g', nx, sp)).g.initCalled = g'.initCalled ∧
          (applyRes s t rest (g', nx, sp)).g.finiLibCalled = g'.finiLibCalled := by
        rw [applyRes_g]; split <;> exact ⟨rfl, rfl, rfl⟩
      unfold LibOk
      rw [hg.1, hg.2.1, hg.2.2]
      have hmem : ∀ u, s.th u ≠ [] → u < s.g.nextTid := by
        intro u hu
        by_cases hlt : u < s.g.nextTid
        · exact hlt
        · exact absurd (fresh_inv hr u (by omega)) hu
      -- frames of the new state
      have hnew : g'.initCalled = true → s.g.initCalled = true →
          (∀ u, ∀ f ∈ s.th u, f.pendingInit = false) →
          ∀ u, ∀ f ∈ (applyRes s t rest (g', nx, sp)).th u, f.pendingInit = false := by
        intro _ hi hp u f' hm
        have hgo := lib_go' hi (hp t f (by rw [ht]; exact List.mem_cons_self)) hf
        rcases applyRes_mem ht hm with h | ⟨l, e, _, h⟩ | ⟨e, _⟩ | ⟨_, e | ⟨_, _, _, _, e⟩⟩
        · exact hp u f' h
        · exact hgo.2.2.2.1 l e f' h
        · exact hgo.2.2.2.2.1 f' e
        · subst e; rfl
        · subst e; rfl
      by_cases he : f = .el0
      · subst he
        have hA' : s.g.initCalled = true ∧ libIdle s := by
          simp only [QuietLib, ht] at hA; exact hA
        obtain ⟨hi, hidle⟩ := hA'
        have hnoP : ∀ u, ∀ f ∈ s.th u, f.pendingInit = false := fun u f hm =>
          (hidle u (hmem u (List.ne_nil_of_mem hm)) f hm).2
        have hnoE : ∀ u, .elCb ∉ s.th u := fun u hm =>
          (hidle u (hmem u (List.ne_nil_of_mem hm)) _ hm).1 rfl
        fstep_cases hf
        · rename_i hc
          rcases ih with ih | ⟨a1, a2, a3, a4⟩
          · exact Or.inl ih
          · exact Or.inr ⟨a1, a2, hnew a2 a2 a3, Or.inl hc⟩
        · rename_i hc
          have h0 : finiLibs s.g = 0 := by
            rcases ih with ih | ⟨a1, a2, a3, a4 | ⟨u, hu⟩⟩
            · exact ih
            · exact absurd a4 hc
            · exact absurd hu (hnoE u)
          refine Or.inr ⟨?_, hi, hnew hi hi hnoP, Or.inr ⟨t, ?_⟩⟩
          · have h0 : occurs Ev.isFiniLibrary (own s.g.tr) = 0 := h0
            simp [finiLibs, G.emit, own, Ev.isForked, occurs_cons, Ev.isFiniLibrary, h0]
          · show _ ∈ setTh s.th t _ t
            rw [setTh_self]; exact List.mem_cons_self
      · rw [lib_go he hf]
        refine ih.imp id ?_
        rintro ⟨a1, a2, a3, a4⟩
        have hgo := lib_go' a2 (a3 t f (by rw [ht]; exact List.mem_cons_self)) hf
        refine ⟨a1, hgo.1, hnew hgo.1 a2 a3, ?_⟩
        rcases a4 with a4 | ⟨u, hu⟩
        · exact Or.inl (hgo.2.1 a4)
        · by_cases hcb : f = .elCb
          · exact Or.inl (hgo.2.2.1 hcb)
          · refine Or.inr ⟨u, ?_⟩
            rcases fstep_spawn hf with ⟨rfl, e⟩ | ⟨f0, l, rfl, e, rfl⟩
            · cases nx with
              | go l =>
                show _ ∈ setTh s.th t (l ++ rest) u
                by_cases e : u = t
                · subst e; rw [setTh_self]
                  rw [ht] at hu
                  rcases List.mem_cons.1 hu with hu | hu
                  · exact absurd hu.symm hcb
                  · exact List.mem_append_right _ hu
                · rw [setTh_ne _ _ e]; exact hu
              | unwind =>
                show _ ∈ setTh s.th t (unwound rest) u
                by_cases e : u = t
                · subst e
                  rw [ht] at hu
                  have hur : .elCb ∈ rest := by
                    rcases List.mem_cons.1 hu with hu | hu
                    · exact absurd hu.symm hcb
                    · exact hu
                  rcases hgo.2.2.2.2.2 rfl with e | e <;> subst e <;>
                    simp only [QuietLib, ht] at hA <;> exact absurd hur hA
                · rw [setTh_ne _ _ e]; exact hu
              | die => exact hu
            · show _ ∈ setTh (setTh s.th s.g.nextTid [f0]) t (l ++ rest) u
              by_cases e : u = t
              · subst e; rw [setTh_self]
                rw [ht] at hu
                rcases List.mem_cons.1 hu with hu | hu
                · exact absurd hu.symm hcb
                · exact List.mem_append_right _ hu
              · have := hmem u (List.ne_nil_of_mem hu)
                rw [setTh_ne _ _ e, setTh_ne _ _ (by omega)]; exact hu

end Libmonitor.Proc
