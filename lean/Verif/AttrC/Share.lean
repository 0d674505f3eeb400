import Verif.AttrC.Lemmas

/-!
# Invariants for C79 and C80: the application's objects
-/

namespace Libmonitor.AttrC

open Attr (Obj)

theorem wish_skip {a : Id} {e : Ev} {tr : List Ev} (h : ∀ u, e ≠ .use u) : wish a (e :: tr) = wish a tr := by
  cases e with
  | use u => exact absurd rfl (h u)
  | _ => rfl

/-- What the application's call makes of an object. -/
def Use.apply (u : Use) (a : Id) (o : Option Obj) : Option Obj :=
  match u with
  | .init b => if b = a then some {} else o
  | .drop b => if b = a then none else o
  | .size b n => if b = a then o.map fun o => { o with size := some n } else o
  | .stack b top n => if b = a then o.map fun _ => { size := some n, top := some top } else o
  | .default _ => o

theorem wish_apply {tr : List Ev} {u : Use} {a : Id} : wish a (.use u :: tr) = u.apply a (wish a tr) := by
  cases u <;> rfl

theorem obj_apply {s : S} {u : Use} {a : Id} : ((s.log (.use u)).use u).obj a = u.apply a (s.obj a) := by
  cases u <;> simp only [S.use, Use.apply, putApp_obj, log_obj, eq_comm (a := a)] <;> split <;> simp_all

theorem apply_other {u : Use} {a : Id} {o : Option Obj} (h : u.about ≠ some a) : u.apply a o = o := by
  cases u <;> simp [Use.about] at h <;> simp [Use.apply, h]

/-- A step of a call, for an object of the application: nothing, or a new size. -/
theorem cmove_obj {s s' : S} {t : Tid} {c : Call} {rest : List Slot} {ok : Bool} {n : Nat} {p : Pc}
    (h : CMove s t c rest ok n p s') (a : Id) : s'.obj a = s.obj a ∨
      s.att c = some a ∧ ok = true ∧ ∃ o m, s.obj a = some o ∧ s'.obj a = some { o with size := some m } ∧
        ((∃ old, p = .set old m) ∨ ∃ d r, p = .restore m d r) := by
  have res : ∀ q o m, (q = target (s.att c) ∨ q = orig (s.att c)) → s.cell c q = some o →
      (s.resize c q o m ok).obj a = s.obj a ∨ s.att c = some a ∧ ok = true ∧ s.obj a = some o ∧
        (s.resize c q o m ok).obj a = some { o with size := some m } := by
    intro q o m hq ho
    cases ok
    · exact .inl (by simp [S.resize])
    · cases q with
      | null => exact .inl (by simp [S.resize, S.put])
      | dflt => exact .inl (by simp [S.resize, S.put])
      | app b =>
        have hb : s.att c = some b := by
          cases hc : s.att c <;> simp [hc, target, orig] at hq ⊢
          exact hq.symm
        by_cases hab : a = b
        · subst hab
          exact .inr ⟨hb, rfl, ho, by simp [S.resize, S.put]⟩
        · exact .inl (by simp [S.resize, S.put, hab])
  cases h with
  | set ho =>
    rcases res _ _ _ (.inl rfl) ho with h | ⟨h1, h2, h3, h4⟩
    · exact .inl h
    · exact .inr ⟨h1, h2, _, _, h3, h4, .inl ⟨_, rfl⟩⟩
  | noSet ho => exact .inl (by simp [S.resize])
  | restore ho =>
    rcases res _ _ _ (.inr rfl) ho with h | ⟨h1, h2, h3, h4⟩
    · exact .inl h
    · exact .inr ⟨h1, h2, _, _, h3, h4, .inr ⟨_, _, rfl⟩⟩
  | _ => exact .inl (by simp [S.crash])

/-- ... and the history. -/
theorem cmove_tr {s s' : S} {t : Tid} {c : Call} {rest : List Slot} {ok : Bool} {n : Nat} {p : Pc}
    (h : CMove s t c rest ok n p s') (a : Id) : wish a s'.tr = wish a s.tr ∧ s'.dflt = s.dflt ∧
      (∀ e ∈ s.tr, e ∈ s'.tr) ∧ ∀ u, .use u ∈ s'.tr → .use u ∈ s.tr := by
  cases h <;> refine ⟨?_, ?_, ?_, ?_⟩ <;> simp_all [wish, S.crash]

/-- How the history and the objects change in a step. -/
theorem step_obj {A : S → Lbl → Prop} {d0 : Nat} {s s' : S} {l : Lbl} (hs : ReachA A d0 s)
    (hn : next s l = some s') (a : Id) :
    (∃ t u, l = .use t u ∧ wish a s'.tr = u.apply a (wish a s.tr) ∧ s'.obj a = u.apply a (s.obj a)) ∨
    wish a s'.tr = wish a s.tr ∧ (s'.obj a = s.obj a ∨
      ∃ o m, s.obj a = some o ∧ s'.obj a = some { o with size := some m }) := by
  have hi := inv_of hs
  unfold next at hn
  split at hn
  · simp at hn
  cases l with
  | step t ok n =>
    simp only at hn
    split at hn
    · rename_i c rest he
      have ht := hi.told c
      have hm := cmove_of hn (by
        intro v d r hp
        rw [hp] at ht
        obtain ⟨b, _, _, _, hb, _⟩ := ht
        simp [hb])
      refine .inr ⟨(cmove_tr hm a).1, ?_⟩
      rcases cmove_obj hm a with h | ⟨_, _, o, m, h1, h2, _⟩
      · exact .inl h
      · exact .inr ⟨o, m, h1, h2⟩
    · simp at hn
  | use t u =>
    simp only at hn
    split at hn
    · simp only [Option.some.injEq] at hn; subst hn
      exact .inl ⟨t, u, rfl, by rw [(@log_use s u).2.2.2.2.1, wish_apply], obj_apply⟩
    · simp at hn
  | create t b =>
    simp only at hn
    split at hn
    · simp only [Option.some.injEq] at hn; subst hn
      exact .inr ⟨rfl, .inl rfl⟩
    · simp at hn
  | fork t =>
    simp only at hn
    split at hn
    · simp only [Option.some.injEq] at hn; subst hn
      exact .inr ⟨rfl, .inl rfl⟩
    · simp at hn
  | out t => simp only [Option.some.injEq] at hn; subst hn; exact .inr ⟨rfl, .inl rfl⟩
  | back t =>
    simp only at hn
    split at hn
    · simp only [Option.some.injEq] at hn; subst hn; exact .inr ⟨rfl, .inl rfl⟩
    · simp at hn
  | unwind t =>
    simp only at hn
    split at hn
    · simp only [Option.some.injEq] at hn; subst hn; exact .inr ⟨rfl, .inl rfl⟩
    · simp only [Option.some.injEq] at hn; subst hn; exact .inr ⟨rfl, .inl rfl⟩
    · simp at hn

/-- Only the size of an object is ever touched. -/
theorem shape_inv {A : S → Lbl → Prop} {d0 : Nat} {s : S} (hs : ReachA A d0 s) (a : Id) :
    (s.obj a).map (·.top) = (wish a s.tr).map (·.top) := by
  induction hs with
  | init => rfl
  | @next s s' l hs _ hn ih =>
    rcases step_obj hs hn a with ⟨t, u, _, h1, h2⟩ | ⟨h1, h2 | ⟨o, m, h2, h3⟩⟩
    · rw [h1, h2]
      cases u <;> simp only [Use.apply] <;> (try exact ih) <;> split <;> (try exact ih)
      · rfl
      · rfl
      · simpa [Function.comp_def] using ih
      · cases ho : s.obj a <;> cases hw : wish a s.tr <;> simp [ho, hw] at ih ⊢
    · rw [h1, h2]; exact ih
    · rw [h1, h3, ← ih, h2]; rfl

/-! ### One call at a time -/

section
variable (d0 : Nat) (a : Id)

/-- `v` is the size of `o`. -/
def Old (tr : List Ev) (o : Obj) (v : Nat) : Prop := o.size = some v ∨ o.size = none ∧ WasDefault d0 tr v

/-- The object is as the application wants it. -/
def Clean (s : S) : Prop := (wish a s.tr = none ∧ s.obj a = none) ∨
  ∃ w o, wish a s.tr = some w ∧ s.obj a = some o ∧ AsWished d0 s.tr w o

/-- ... except that call `c` has set the client's size, to restore `v`. -/
def Dirty (s : S) (c : Call) (v : Nat) : Prop := ∃ w o n, wish a s.tr = some w ∧ AsWished d0 s.tr w o ∧
  Old d0 s.tr o v ∧ s.obj a = some { o with size := some n } ∧ .ask c v n ∈ s.tr ∧ .set c (.app a) n true ∈ s.tr
end

def restores : Pc → Option Nat
  | .create _ (some v) _ => some v
  | .restore v _ _ => some v
  | _ => none

def reads : Pc → Option Nat
  | .ask v => some v
  | .set v _ => some v
  | _ => none

theorem running_restores {s : S} {c : Call} {v : Nat} (h : restores (s.pc c) = some v) : s.running c = true := by
  unfold S.running
  split <;> rename_i hp <;> first | (rw [hp] at h; simp [restores] at h) | rfl

theorem running_reads {s : S} {c : Call} {v : Nat} (h : reads (s.pc c) = some v) : s.running c = true := by
  unfold S.running
  split <;> rename_i hp <;> first | (rw [hp] at h; simp [reads] at h) | rfl

structure Shared (d0 : Nat) (a : Id) (s : S) : Prop where
  dflt : WasDefault d0 s.tr s.dflt
  uniq : ∀ c d, s.running c = true → s.att c = some a → s.running d = true → s.att d = some a → c = d
  clean : (∀ c, s.running c = true → s.att c = some a → restores (s.pc c) = none) → Clean d0 a s
  dirty : ∀ c v, s.att c = some a → restores (s.pc c) = some v → Dirty d0 a s c v
  read : ∀ c v, s.att c = some a → reads (s.pc c) = some v → ∃ o, s.obj a = some o ∧ Old d0 s.tr o v

section
variable {d0 : Nat} {a : Id} {s s' : S}

theorem wasDefault_mono {tr tr' : List Ev} {d : Nat} (h : WasDefault d0 tr d) (ht : ∀ e ∈ tr, e ∈ tr') :
    WasDefault d0 tr' d := h.imp id (ht _)

theorem asWished_mono {tr tr' : List Ev} {w o : Obj} (h : AsWished d0 tr w o) (ht : ∀ e ∈ tr, e ∈ tr') :
    AsWished d0 tr' w o :=
  h.imp id fun ⟨h1, d, h2, h3⟩ => ⟨h1, d, wasDefault_mono h2 ht, h3⟩

theorem old_mono {tr tr' : List Ev} {o : Obj} {v : Nat} (h : Old d0 tr o v) (ht : ∀ e ∈ tr, e ∈ tr') :
    Old d0 tr' o v := h.imp id fun ⟨h1, h2⟩ => ⟨h1, wasDefault_mono h2 ht⟩

theorem clean_mono (h : Clean d0 a s) (ht : ∀ e ∈ s.tr, e ∈ s'.tr) (hw : wish a s'.tr = wish a s.tr)
    (ho : s'.obj a = s.obj a) : Clean d0 a s' := by
  unfold Clean at h ⊢
  rw [hw, ho]
  exact h.imp id fun ⟨w, o, h1, h2, h3⟩ => ⟨w, o, h1, h2, asWished_mono h3 ht⟩

theorem dirty_mono {c : Call} {v : Nat} (h : Dirty d0 a s c v) (ht : ∀ e ∈ s.tr, e ∈ s'.tr)
    (hw : wish a s'.tr = wish a s.tr) (ho : s'.obj a = s.obj a) : Dirty d0 a s' c v := by
  obtain ⟨w, o, n, h1, h2, h3, h4, h5, h6⟩ := h
  exact ⟨w, o, n, hw ▸ h1, asWished_mono h2 ht, old_mono h3 ht, ho ▸ h4, ht _ h5, ht _ h6⟩

theorem transfer (h : Shared d0 a s) (ht : ∀ e ∈ s.tr, e ∈ s'.tr) (hw : wish a s'.tr = wish a s.tr)
    (ho : s'.obj a = s.obj a) (hd : WasDefault d0 s'.tr s'.dflt)
    (h1 : ∀ c, s'.running c = true → s'.att c = some a → s.att c = some a ∧ s'.pc c = s.pc c)
    (h2 : ∀ c, s.running c = true → s.att c = some a → s'.att c = some a ∧ s'.pc c = s.pc c) :
    Shared d0 a s' := by
  have hr : ∀ c, s'.pc c = s.pc c → s'.running c = s.running c := by intro c h; simp [S.running, h]
  refine ⟨hd, ?_, ?_, ?_, ?_⟩
  · intro c d hc hca hd hda
    have k1 := h1 c hc hca
    have k2 := h1 d hd hda
    exact h.uniq c d (hr c k1.2 ▸ hc) k1.1 (hr d k2.2 ▸ hd) k2.1
  · intro hall
    refine clean_mono (h.clean fun c hc hca => ?_) ht hw ho
    have k := h2 c hc hca
    rw [← k.2]
    exact hall c (by rw [hr c k.2]; exact hc) k.1
  · intro c v hca hv
    have k := h1 c (running_restores hv) hca
    exact dirty_mono (h.dirty c v k.1 (k.2 ▸ hv)) ht hw ho
  · intro c v hca hv
    have k := h1 c (running_reads hv) hca
    obtain ⟨o, h3, h4⟩ := h.read c v k.1 (k.2 ▸ hv)
    exact ⟨o, by rw [ho]; exact h3, old_mono h4 ht⟩

theorem clean_apply {u : Use} (h : Clean d0 a s) (hw : wish a s'.tr = u.apply a (wish a s.tr))
    (ho : s'.obj a = u.apply a (s.obj a)) (ht : ∀ e ∈ s.tr, e ∈ s'.tr) : Clean d0 a s' := by
  have refl : ∀ w, AsWished d0 s'.tr w w := fun w => .inl rfl
  rcases h with ⟨h1, h2⟩ | ⟨w, o, h1, h2, h3⟩
  · rw [h1] at hw; rw [h2] at ho
    cases he : u.apply a none with
    | none => exact .inl ⟨hw.trans he, ho.trans he⟩
    | some x => exact .inr ⟨x, x, hw.trans he, ho.trans he, refl x⟩
  · rw [h1] at hw; rw [h2] at ho
    by_cases hua : u.about = some a
    · have hsame : u.apply a (some o) = u.apply a (some w) := by
        have htop : o.top = w.top := by
          rcases h3 with rfl | ⟨_, d, _, rfl⟩ <;> rfl
        cases u <;> simp [Use.about] at hua <;> simp [Use.apply, hua, htop]
      rw [hsame] at ho
      cases he : u.apply a (some w) with
      | none => exact .inl ⟨hw.trans he, ho.trans he⟩
      | some x => exact .inr ⟨x, x, hw.trans he, ho.trans he, refl x⟩
    · rw [apply_other hua] at hw ho
      exact .inr ⟨w, o, hw, ho, asWished_mono h3 ht⟩

/-- Restoring. -/
theorem asWished_restored {tr : List Ev} {w o : Obj} {v : Nat} (h : AsWished d0 tr w o) (hv : Old d0 tr o v) :
    AsWished d0 tr w { o with size := some v } := by
  rcases hv with hv | ⟨hv, hd⟩
  · have : ({ o with size := some v } : Obj) = o := by rw [← hv]
    rw [this]; exact h
  · rcases h with rfl | ⟨h1, d, _, rfl⟩
    · exact .inr ⟨hv, v, hd, rfl⟩
    · simp at hv
end

/-- A step of the only call that uses the object. -/
theorem shared_call {d0 : Nat} {a : Id} {s s' : S} {t : Tid} {c : Call} {rest : List Slot} {ok : Bool}
    {n : Nat} {p : Pc} (h : Shared d0 a s) (hi : Inv s) (hp : s.pc c = p) (he : s.th t = .call c :: rest)
    (hm : CMove s t c rest ok n p s') (ha : s.att c = some a) (hrun : s.running c = true)
    (hok : ∀ v d r, p = .restore v d r → ok = true) : Shared d0 a s' := by
  have hA := cmove_alone hm he
  obtain ⟨hw, hdf, ht, _⟩ := cmove_tr hm a
  have htold := hi.told c
  rw [hp, ha] at htold
  have only : ∀ d, s'.running d = true → s'.att d = some a → d = c := by
    intro d hd hda
    by_cases hdc : d = c
    · exact hdc
    · refine h.uniq d c ?_ (hA.att ▸ hda) hrun ha
      simpa [S.running, hA.pc d hdc] using hd
  have hclean : restores p = none → Clean d0 a s := by
    intro hr
    refine h.clean fun d hd hda => ?_
    rw [h.uniq d c hd hda hrun ha, hp]; exact hr
  have hdirty : ∀ v, restores p = some v → Dirty d0 a s c v := fun v hv => h.dirty c v ha (hp ▸ hv)
  have hread : ∀ v, reads p = some v → ∃ o, s.obj a = some o ∧ Old d0 s.tr o v :=
    fun v hv => h.read c v ha (hp ▸ hv)
  have hca : s'.att c = some a := by rw [hA.att]; exact ha
  have hobj := cmove_obj hm a
  -- it is enough to look at call `c`
  have fin : (restores (s'.pc c) = none → Clean d0 a s') →
      (∀ v, restores (s'.pc c) = some v → Dirty d0 a s' c v) →
      (∀ v, reads (s'.pc c) = some v → ∃ o, s'.obj a = some o ∧ Old d0 s'.tr o v) → Shared d0 a s' := by
    intro k1 k2 k3
    refine ⟨?_, ?_, ?_, ?_, ?_⟩
    · rw [hdf]; exact wasDefault_mono h.dflt ht
    · intro d e hd hda he hea; rw [only d hd hda, only e he hea]
    · intro hall
      cases hr : restores (s'.pc c) with
      | none => exact k1 hr
      | some v => have := hall c (running_restores hr) hca; rw [hr] at this; simp at this
    · intro d v hda hv
      have := only d (running_restores hv) hda
      subst this; exact k2 v hv
    · intro d v hda hv
      have := only d (running_reads hv) hda
      subst this; exact k3 v hv
  -- nothing has changed, and nothing is to be restored
  have plain : restores p = none → s'.obj a = s.obj a → restores (s'.pc c) = none → reads (s'.pc c) = none →
      Shared d0 a s' := by
    intro h1 h2 h3 h4
    refine fin (fun _ => clean_mono (hclean h1) ht hw h2) ?_ ?_
    · intro v hv; rw [h3] at hv; simp at hv
    · intro v hv; rw [h4] at hv; simp at hv
  cases hm with
  | pre =>
    refine plain rfl rfl ?_ ?_ <;> simp only [goto_pc, if_true] <;> split <;> try rfl
    all_goals split <;> rfl
  | direct ho => exact plain rfl rfl (by simp [restores]) (by simp [reads])
  | init => simp [Told] at htold
  | noInit => simp [Told] at htold
  | @get n o ho =>
    rw [ha] at ho
    simp only [target, S.cell] at ho
    refine fin (fun _ => clean_mono (hclean rfl) ht hw rfl) (fun v hv => by simp [restores] at hv) ?_
    intro v hv
    simp only [goto_pc, if_true, reads, Option.some.injEq] at hv
    subst hv
    refine ⟨o, by simpa using ho, ?_⟩
    cases hsz : o.size with
    | none =>
      refine .inr ⟨hsz, ?_⟩
      simpa [Obj.stackSize, hsz] using wasDefault_mono h.dflt ht
    | some m => exact .inl (by simp [Obj.stackSize, hsz])
  | noGet ho => exact plain rfl rfl (by simp [restores]) (by simp [reads])
  | same => exact plain rfl rfl (by simp [restores]) (by simp [reads])
  | @ask ok n old hne =>
    refine fin (fun _ => clean_mono (hclean rfl) ht hw rfl) (fun v hv => by simp [restores] at hv) ?_
    intro v hv
    simp only [goto_pc, if_true, reads, Option.some.injEq] at hv
    subst hv
    obtain ⟨o, h1, h2⟩ := hread old rfl
    exact ⟨o, h1, old_mono h2 ht⟩
  | @set n o old new ho =>
    rw [ha] at ho
    simp only [target, S.cell] at ho
    have hpc : restores (((s.resize c (target (s.att c)) o new true).goto c
        (.create (target (s.att c)) (if target (s.att c) = orig (s.att c) then some old else none)
          (s.att c).isNone)).pc c) = some old := by
      simp [ha, target, orig, restores]
    refine fin (fun h' => by rw [hpc] at h'; simp at h') ?_ (fun v hv => by simp [reads] at hv)
    intro v hv
    rw [hpc] at hv
    simp only [Option.some.injEq] at hv; subst hv
    obtain ⟨o', h1, h2⟩ := hread old rfl
    rw [ho] at h1; cases h1
    rcases hclean rfl with ⟨_, h3⟩ | ⟨w, o', h3, h4, h5⟩
    · rw [ho] at h3; simp at h3
    · rw [ho] at h4; cases h4
      refine ⟨w, o, new, by rw [hw]; exact h3, asWished_mono h5 ht, old_mono h2 ht, ?_, ht _ ?_, ?_⟩
      · simp [ha, target, S.resize, S.put]
      · refine (mem_ofCall (c := c) rfl).mp ?_
        rw [htold.2.2]; simp
      · simp [ha, target]
  | noSet ho => exact plain rfl (by simp [S.resize]) (by simp [restores]) (by simp [reads])
  | @create ok n p r d o ho =>
    cases r with
    | none =>
      refine plain rfl rfl ?_ ?_ <;> simp only [goto_pc, if_true, afterReal, cleanup] <;> split <;> rfl
    | some v =>
      refine fin (fun h' => by simp [afterReal, restores] at h') ?_ (fun v hv => by simp [afterReal, reads] at hv)
      intro v' hv
      simp only [goto_pc, if_true, afterReal, restores, Option.some.injEq] at hv
      subst hv
      exact dirty_mono (hdirty v rfl) ht hw rfl
  | @restore ok n old d r o ho =>
    have hk := hok _ _ _ rfl
    subst hk
    rw [ha] at ho
    simp only [orig, S.cell] at ho
    obtain ⟨w, o', m, h1, h2, h3, h4, _⟩ := hdirty old rfl
    rw [ho] at h4; cases h4
    have hr : restores ((cleanup d r)) = none ∧ reads (cleanup d r) = none := by
      unfold cleanup; split <;> exact ⟨rfl, rfl⟩
    refine fin (fun _ => .inr ⟨w, { o' with size := some old }, by rw [hw]; exact h1, ?_,
      asWished_restored (asWished_mono h2 ht) (old_mono h3 ht)⟩) ?_ ?_
    · simp [ha, orig, S.resize, S.put]
    · intro v hv; simp [hr.1] at hv
    · intro v hv; simp [hr.2] at hv
  | destroy ho => simp [Told] at htold
  | post => exact plain rfl rfl (by simp [restores]) (by simp [reads])
  | crash h1 h2 h3 =>
    refine transfer h ht hw rfl ?_ (fun d _ hd => ⟨hd, rfl⟩) (fun d _ hd => ⟨hd, rfl⟩)
    rw [hdf]; exact wasDefault_mono h.dflt ht

theorem shared_step {A : S → Lbl → Prop} {d0 : Nat} {a : Id} {s s' : S} {l : Lbl} (hs : ReachA A d0 s)
    (h : Shared d0 a s) (hl : OneAtATime a s l) (hn : next s l = some s') : Shared d0 a s' := by
  have hi := inv_of hs
  have hobj := step_obj hs hn a
  unfold next at hn
  split at hn
  · simp at hn
  cases l with
  | step t ok n =>
    simp only at hn
    split at hn
    · rename_i c rest he
      have ht := hi.told c
      have hm := cmove_of hn (by
        intro v d r hp
        rw [hp] at ht
        obtain ⟨b, _, _, _, hb, _⟩ := ht
        simp [hb])
      by_cases ha : s.att c = some a
      · have hrun : s.running c = true := by
          unfold S.running
          split <;> rename_i hp
          · rw [hp] at hn; simp [cstep] at hn
          · rw [hp] at hn; simp [cstep] at hn
          · rw [hp] at hn; simp [cstep] at hn
          · rfl
        exact shared_call h hi rfl he hm ha hrun fun v d r hp => hl c rest v d r he ha hp
      · have hA := cmove_alone hm he
        obtain ⟨hw, hdf, ht, _⟩ := cmove_tr hm a
        have hne : ∀ d, s.att d = some a → d ≠ c := by rintro d hd rfl; exact ha hd
        refine transfer h ht hw ?_ (by rw [hdf]; exact wasDefault_mono h.dflt ht) ?_ ?_
        · rcases cmove_obj hm a with h | ⟨h, _⟩
          · exact h
          · exact absurd h ha
        · intro d _ hd; rw [hA.att] at hd; exact ⟨hd, hA.pc d (hne d hd)⟩
        · intro d _ hd; exact ⟨by rw [hA.att]; exact hd, hA.pc d (hne d hd)⟩
    · simp at hn
  | use t u =>
    simp only at hn
    split at hn
    · simp only [Option.some.injEq] at hn; subst hn
      obtain ⟨h1, h2, h3, h4, h5, h6⟩ := @log_use s u
      have ht : ∀ e ∈ s.tr, e ∈ ((s.log (.use u)).use u).tr := by
        intro e he; rw [h5]; exact List.mem_cons_of_mem _ he
      have hd : WasDefault d0 ((s.log (.use u)).use u).tr ((s.log (.use u)).use u).dflt := by
        cases u with
        | default n => exact .inr (by simp [S.use])
        | _ => exact wasDefault_mono h.dflt ht
      have hrun : ∀ c, ((s.log (.use u)).use u).running c = s.running c := by intro c; simp [S.running, h1]
      by_cases ha : u.about = some a
      · have hb := hl ha
        have hnone : ∀ c, s.running c = true → s.att c ≠ some a := fun c hc hca => hb ⟨c, hc, hca⟩
        refine ⟨hd, ?_, ?_, ?_, ?_⟩
        · intro c d hc hca; rw [hrun] at hc; rw [h2] at hca; exact absurd hca (hnone c hc)
        · intro _
          exact clean_apply (h.clean fun c hc hca => absurd hca (hnone c hc))
            (by rw [h5, wish_apply]) obj_apply ht
        · intro c v hca hv
          have := running_restores hv
          rw [hrun] at this; rw [h2] at hca; exact absurd hca (hnone c this)
        · intro c v hca hv
          have := running_reads hv
          rw [hrun] at this; rw [h2] at hca; exact absurd hca (hnone c this)
      · refine transfer h ht (by rw [h5, wish_apply, apply_other ha]) (by rw [obj_apply, apply_other ha]) hd ?_ ?_
        · intro c _ hc; rw [h2] at hc; exact ⟨hc, by rw [h1]⟩
        · intro c _ hc; exact ⟨by rw [h2]; exact hc, by rw [h1]⟩
    · simp at hn
  | create t b =>
    simp only at hn
    split at hn
    · simp only [Option.some.injEq] at hn; subst hn
      have hf := hi.fresh s.nextC (Nat.le_refl _)
      have hne : ∀ c, s.running c = true → c ≠ s.nextC := by
        rintro c hc rfl; simp [S.running, hf] at hc
      by_cases hb : b = some a
      · subst hb
        have hbusy := hl rfl
        have hnone : ∀ c, s.running c = true → s.att c ≠ some a := fun c hc hca => hbusy ⟨c, hc, hca⟩
        have key : ∀ c, S.running ({ (s.log (.enter s.nextC (some a))).goto s.nextC .pre with
            att := fun d => if d = s.nextC then some a else s.att d
            nextC := s.nextC + 1 }.setTh t (.call s.nextC :: s.th t)) c = true →
            (if c = s.nextC then some a else s.att c) = some a → c = s.nextC := by
          intro c hc hca
          by_cases h' : c = s.nextC
          · exact h'
          · simp only [S.running, S.setTh, S.goto, S.log, if_neg h'] at hc
            rw [if_neg h'] at hca
            exact absurd hca (hnone c hc)
        refine ⟨wasDefault_mono h.dflt (fun e he => List.mem_cons_of_mem _ he), ?_, ?_, ?_, ?_⟩
        · intro c d hc hca hd hda; rw [key c hc hca, key d hd hda]
        · intro _
          exact clean_mono (h.clean fun c hc hca => absurd hca (hnone c hc))
            (fun e he => List.mem_cons_of_mem _ he) rfl rfl
        · intro c v hca hv
          have := key c (running_restores hv) hca
          subst this
          simp [S.setTh, S.goto, restores] at hv
        · intro c v hca hv
          have := key c (running_reads hv) hca
          subst this
          simp [S.setTh, S.goto, reads] at hv
      · refine transfer h (fun e he => List.mem_cons_of_mem _ he) rfl rfl
          (wasDefault_mono h.dflt (fun e he => List.mem_cons_of_mem _ he)) ?_ ?_
        · intro c hc hca
          have h' : c ≠ s.nextC := by
            rintro rfl
            exact hb (by simpa [S.setTh, S.goto, S.log] using hca)
          exact ⟨by simpa [S.setTh, S.goto, S.log, h'] using hca, by simp [S.setTh, S.goto, S.log, h']⟩
        · intro c hc hca
          have h' := hne c hc
          exact ⟨by simpa [S.setTh, S.goto, S.log, h'] using hca, by simp [S.setTh, S.goto, S.log, h']⟩
    · simp at hn
  | fork t =>
    simp only at hn
    split at hn
    · simp only [Option.some.injEq] at hn; subst hn
      refine transfer h (fun e he => List.mem_cons_of_mem _ he) rfl rfl
          (wasDefault_mono h.dflt (fun e he => List.mem_cons_of_mem _ he)) ?_ ?_
      · intro c hc hca
        refine ⟨hca, ?_⟩
        dsimp only [S.running] at hc ⊢
        split
        · rfl
        · rename_i hno; rw [if_neg hno] at hc; simp at hc
      · intro c hc hca
        refine ⟨hca, ?_⟩
        dsimp only
        rw [if_pos (.inr (.inr (hl c hc hca)))]
    · simp at hn
  | out t =>
    simp only [Option.some.injEq] at hn; subst hn
    exact transfer h (fun e he => he) rfl rfl h.dflt (fun _ _ h => ⟨h, rfl⟩) (fun _ _ h => ⟨h, rfl⟩)
  | back t =>
    simp only at hn
    split at hn
    · simp only [Option.some.injEq] at hn; subst hn
      exact transfer h (fun e he => he) rfl rfl h.dflt (fun _ _ h => ⟨h, rfl⟩) (fun _ _ h => ⟨h, rfl⟩)
    · simp at hn
  | unwind t =>
    simp only at hn
    split at hn
    · simp only [Option.some.injEq] at hn; subst hn
      exact transfer h (fun e he => he) rfl rfl h.dflt (fun _ _ h => ⟨h, rfl⟩) (fun _ _ h => ⟨h, rfl⟩)
    · rename_i c rest he
      simp only [Option.some.injEq] at hn; subst hn
      have hc := hl c rest he
      have hne : ∀ d, s.att d = some a → d ≠ c := by rintro d hd rfl; exact hc hd
      refine transfer h (fun e he => he) rfl rfl h.dflt ?_ ?_
      · intro d _ hd; exact ⟨hd, by simp [S.setTh, S.goto, hne d hd]⟩
      · intro d _ hd; exact ⟨hd, by simp [S.setTh, S.goto, hne d hd]⟩
    · simp at hn

theorem shared_inv {A : S → Lbl → Prop} {d0 : Nat} {a : Id} (hA : ∀ s l, A s l → OneAtATime a s l) {s : S}
    (hs : ReachA A d0 s) : Shared d0 a s := by
  induction hs with
  | init =>
    exact ⟨.inl rfl, fun c d hc => by simp [S.running] at hc, fun _ => .inl ⟨rfl, rfl⟩,
      fun c v _ h => by simp [restores] at h, fun c v _ h => by simp [reads] at h⟩
  | next hs ha hn ih => exact shared_step hs ih (hA _ _ ha) hn

end Libmonitor.AttrC
