import Verif.Sig.Lemmas

/-!
# Histories: keep-open flags, masks, and the simulation of the plain kernel
-/

namespace Libmonitor.Sig

theorem run_append (c : Cfg) (s : S) (a b : List Op) :
    (run c s (a ++ b)).1 = (run c (run c s a).1 b).1 := by
  induction a generalizing s with
  | nil => rfl
  | cons op a ih => simp only [List.cons_append, run]; exact ih _

/-! ## Keep-open -/

theorem openFlags_foldl (c : Cfg) (l : List Int) (f : Nat → Bool) (x : Nat) (h1 : 1 ≤ x)
    (h2 : x < c.nsig) :
    (l.foldl (fun f (sig : Int) => if 1 ≤ sig ∧ sig < c.nsig then upd f sig.toNat true else f) f) x
      = true ↔ f x = true ∨ (x : Int) ∈ l := by
  induction l generalizing f with
  | nil => simp
  | cons k l ih =>
    rw [List.foldl_cons, ih, List.mem_cons]
    by_cases hk : 1 ≤ k ∧ k < (c.nsig : Int)
    · rw [if_pos hk]
      by_cases he : x = k.toNat
      · have : (x : Int) = k := by omega
        rw [← he, upd_self]; simp [this]
      · rw [upd_ne _ _ he]
        have : ¬ (x : Int) = k := by omega
        simp [this]
    · rw [if_neg hk]
      have : ¬ (x : Int) = k := by omega
      simp [this]

theorem init_keepOpen (c : Cfg) (s : S) (hs : s.inited = false) (sh : Nat)
    (hc : choose c (openFlags c c.openList) = some sh) :
    (init c s).keepOpen = upd (openFlags c c.openList) sh true ∧ (init c s).shoot = sh := by
  unfold init
  simp only [hs, Bool.false_eq_true, if_false, hc, sigLoop]
  have h := (initLoop_spec c sh _ (sigs_nodup c) (fun x hx => (mem_sigs c x).1 hx)
    { s with
        inited := true
        appl := fun _ => zeroAct
        kern := fun _ => (0#32, emptySet)
        client := fun _ => none
        invalid := fun _ => false
        applHand := fun _ => false
        keepOpen := upd (openFlags c c.openList) sh true
        shoot := sh }).1
  exact ⟨h.keepOpen, h.shoot⟩

theorem applSigaction_fields (c : Cfg) (s : S) (t : Nat) (sig : Int) (act : Option Act) :
    (applSigaction c s t sig act).1.keepOpen = (init c s).keepOpen ∧
    (applSigaction c s t sig act).1.shoot = (init c s).shoot ∧
    (applSigaction c s t sig act).1.invalid = (init c s).invalid ∧
    (applSigaction c s t sig act).1.client = (init c s).client ∧
    (applSigaction c s t sig act).1.masks = (init c s).masks := by
  unfold applSigaction
  simp only
  split
  · exact ⟨rfl, rfl, rfl, rfl, rfl⟩
  · split
    · exact ⟨rfl, rfl, rfl, rfl, rfl⟩
    · split
      · split
        · exact ⟨rfl, rfl, rfl, rfl, rfl⟩
        · split <;> exact ⟨rfl, rfl, rfl, rfl, rfl⟩
      · cases act with
        | none => exact ⟨rfl, rfl, rfl, rfl, rfl⟩
        | some a =>
          simp only
          rw [(installKern_fields c _ _).1]
          rcases a with ⟨_ | _ | _, _, _⟩ <;> exact ⟨rfl, rfl, rfl, rfl, rfl⟩

theorem clientSigaction_fields (c : Cfg) (s : S) (sig : Int) (hd : Option Nat)
    (act : Option (BitVec 32 × Set)) :
    (clientSigaction c s sig hd act).1.shoot = (init c s).shoot ∧
    (clientSigaction c s sig hd act).1.invalid = (init c s).invalid ∧
    (clientSigaction c s sig hd act).1.appl = (init c s).appl ∧
    (clientSigaction c s sig hd act).1.masks = (init c s).masks ∧
    (clientSigaction c s sig hd act).1.keepOpen =
      (if sig ≤ 0 ∨ sig ≥ c.nsig ∨ avoid sig.toNat = true ∨ (init c s).invalid sig.toNat = true
       then (init c s).keepOpen else upd (init c s).keepOpen sig.toNat true) := by
  unfold clientSigaction
  simp only
  by_cases h1 : sig ≤ 0 ∨ sig ≥ (c.nsig : Int)
  · rw [if_pos h1, if_pos (by omega)]; exact ⟨rfl, rfl, rfl, rfl, rfl⟩
  · rw [if_neg h1]
    by_cases h2 : avoid sig.toNat = true ∨ (init c s).invalid sig.toNat = true
    · rw [if_pos h2, if_pos (Or.inr (Or.inr h2))]; exact ⟨rfl, rfl, rfl, rfl, rfl⟩
    · rw [if_neg h2, if_neg (by
        rintro (h | h | h)
        · exact h1 (Or.inl h)
        · exact h1 (Or.inr h)
        · exact h2 h)]
      cases act with
      | none => exact ⟨rfl, rfl, rfl, rfl, rfl⟩
      | some a =>
        simp only
        rw [(installKern_fields c _ _).1]
        exact ⟨rfl, rfl, rfl, rfl, rfl⟩

theorem sigmask_fields (c : Cfg) (s : S) (t : Nat) (how : Int) (set : Option Set) :
    (sigmask c s t how set).1 = { init c s with masks := (sigmask c s t how set).1.masks } := by
  unfold sigmask
  simp only
  split
  · rfl
  · split <;> rfl

/-- Every call except thread creation (and a failed shootdown, which ends the process) leaves
an initialised state. -/
theorem step_shoot_keep (c : Cfg) (hn : 31 ≤ c.nsig) (s : S) (h : s.inited = false ∨ Inv c s)
    (op : Op) :
    (init c (step c s op).1).shoot = (init c s).shoot ∧
    (∀ x, Spec.Managed c x → ((init c (step c s op).1).keepOpen x = true ↔
      (init c s).keepOpen x = true ∨ ∃ hd a, op = .client x hd a)) := by
  have inv := init_inv c hn s h
  cases op with
  | sigaction t sig act =>
    have i2 := applSigaction_inv c hn s h t sig act
    obtain ⟨f1, f2, _⟩ := applSigaction_fields c s t sig act
    simp only [step]
    rw [init_inited c _ i2.inited, f1, f2]
    exact ⟨rfl, fun x _ => by simp⟩
  | signal t sig hd =>
    have i2 := applSigaction_inv c hn s h t sig (some ⟨hd, 0#32, emptySet⟩)
    obtain ⟨f1, f2, _⟩ := applSigaction_fields c s t sig (some ⟨hd, 0#32, emptySet⟩)
    simp only [step]
    rw [signal_fst, init_inited c _ i2.inited, f1, f2]
    exact ⟨rfl, fun x _ => by simp⟩
  | client sig hd act =>
    have i2 := clientSigaction_inv c hn s h sig hd act
    obtain ⟨f1, f2, f3, f4, f5⟩ := clientSigaction_fields c s sig hd act
    simp only [step]
    rw [init_inited c _ i2.inited, f1, f5]
    refine ⟨rfl, fun x hx => ?_⟩
    have hv := (managed_iff_valid inv hx.1 hx.2.1).1 hx
    have e : (∃ hd' a, Op.client sig hd act = Op.client (x : Int) hd' a) ↔ sig = x := by
      constructor
      · rintro ⟨_, _, h⟩; cases h; rfl
      · rintro rfl; exact ⟨hd, act, rfl⟩
    rw [e]
    by_cases hs : sig = (x : Int)
    · subst hs
      rw [if_neg]
      · simp
      · simp only [Int.toNat_natCast, hv.1, hv.2, Bool.false_eq_true, or_false]
        have := hx.1; have := hx.2.1
        omega
    · have hne : sig ≤ 0 ∨ x ≠ sig.toNat := by omega
      split
      · simp [hs]
      · rename_i hc
        have : x ≠ sig.toNat := by
          rcases hne with h | h
          · exact absurd (Or.inl h) hc
          · exact h
        rw [upd_ne _ _ this]; simp [hs]
  | sigmask t how set =>
    have i2 := sigmask_inv c hn s h t how set
    have f := sigmask_fields c s t how set
    simp only [step]
    rw [init_inited c _ i2.inited, f]
    exact ⟨rfl, fun x _ => by simp⟩
  | newThread p ch =>
    simp only [step]
    rcases h with h | h
    · obtain ⟨sh, hch, _⟩ := choose_spec c (openFlags c c.openList) hn
      obtain ⟨a, b⟩ := init_keepOpen c s h sh hch
      obtain ⟨a', b'⟩ := init_keepOpen c { s with masks := upd s.masks ch (s.masks p) } h sh hch
      rw [a, a', b, b']
      exact ⟨rfl, fun x _ => by simp⟩
    · rw [init_inited c s h.inited,
        init_inited c { s with masks := upd s.masks ch (s.masks p) } h.inited]
      exact ⟨rfl, fun x _ => by simp⟩
  | shootdown =>
    simp only [step, installShootdown]
    split
    · rename_i h'
      split at h'
      · cases h'
        rename_i kernel _
        rw [init_inited c { init c s with kernel := kernel } inv.inited]
        exact ⟨rfl, fun x _ => by simp⟩
      · cases h'
    · exact ⟨rfl, fun x _ => by simp⟩

/-- The signals kept open after a history are the shootdown signal and the client's. -/
theorem keep_exact (c : Cfg) (hn : 31 ≤ c.nsig) (s : S) (hs : s.inited = false ∨ Inv c s)
    (ops : List Op) :
    (init c (run c s ops).1).shoot = (init c s).shoot ∧
    (∀ x, Spec.Managed c x → ((init c (run c s ops).1).keepOpen x = true ↔
      (init c s).keepOpen x = true ∨ ∃ hd a, Op.client x hd a ∈ ops)) := by
  induction ops generalizing s with
  | nil => exact ⟨rfl, fun x _ => by simp [run]⟩
  | cons op ops ih =>
    obtain ⟨a, b⟩ := ih _ (step_ok c hn s hs op)
    obtain ⟨a', b'⟩ := step_shoot_keep c hn s hs op
    simp only [run]
    refine ⟨a.trans a', fun x hx => ?_⟩
    rw [b x hx, b' x hx]
    simp only [List.mem_cons]
    constructor
    · rintro ((h | ⟨hd, a, h⟩) | ⟨hd, a, h⟩)
      · exact Or.inl h
      · exact Or.inr ⟨hd, a, Or.inl h.symm⟩
      · exact Or.inr ⟨hd, a, Or.inr h⟩
    · rintro (h | ⟨hd, a, h | h⟩)
      · exact Or.inl (Or.inl h)
      · exact Or.inl (Or.inr ⟨hd, a, h.symm⟩)
      · exact Or.inr ⟨hd, a, h⟩

/-- From program start. -/
theorem keep_start (c : Cfg) (hn : 31 ≤ c.nsig) (k : Nat → Act) (m : Nat → Set) (ops : List Op)
    (x : Nat) (hx : Spec.Managed c x) :
    (init c (run c (start k m) ops).1).keepOpen x = true ↔
      Spec.ClientSignal c ops x ∨ (x : Int) = (init c (run c (start k m) ops).1).shoot := by
  obtain ⟨a, b⟩ := keep_exact c hn (start k m) (Or.inl rfl) ops
  obtain ⟨sh, hch, _⟩ := choose_spec c (openFlags c c.openList) hn
  obtain ⟨e1, e2⟩ := init_keepOpen c (start k m) rfl sh hch
  rw [b x hx, a, e1, e2]
  have ho := openFlags_foldl c c.openList (fun _ => false) x hx.1 hx.2.1
  simp only [Bool.false_eq_true, false_or] at ho
  have : upd (openFlags c c.openList) sh true x = true ↔ x = sh ∨ (x : Int) ∈ c.openList := by
    by_cases h : x = sh
    · subst h; simp
    · rw [upd_ne _ _ h]; simp only [h, false_or]; exact ho
  rw [this]
  unfold Spec.ClientSignal
  simp only [hx, true_and]
  constructor
  · rintro ((h | h) | h)
    · right; omega
    · exact Or.inl (Or.inl h)
    · exact Or.inl (Or.inr h)
  · rintro ((h | h) | h)
    · exact Or.inl (Or.inr h)
    · exact Or.inr h
    · exact Or.inl (Or.inl (by omega))

theorem kept_iff {c : Cfg} {s : S} (inv : Inv c s) {x : Nat} (hx : Spec.Managed c x) :
    kept s x = s.keepOpen x := by
  have := (managed_iff_valid inv hx.1 hx.2.1).1 hx
  simp [kept, this.1, this.2]

/-! ## Masks -/

theorem sigmask_keeps (c : Cfg) (s : S) (t : Nat) (how : Int) (set : Option Set) (x : Nat)
    (h1 : 1 ≤ x) (h2 : x < c.nsig) (hk : kept (init c s) x = true) (u : Nat) :
    (sigmask c s t how set).1.masks u x = (init c s).masks u x := by
  unfold sigmask
  simp only
  cases set with
  | none => rfl
  | some set =>
    simp only
    cases hm : kernelMask how ((init c s).masks t)
        (removeClientSignals c (init c s) ((init c s).masks t) set how) with
    | none => rfl
    | some m =>
      simp only
      by_cases hu : u = t
      · subst hu
        rw [upd_self]
        unfold kernelMask at hm
        have hr := removeClientSignals_apply c (init c s) ((init c s).masks u) set how x
        rw [if_pos ⟨h1, h2, hk⟩] at hr
        split at hm
        · rename_i hh
          cases hm
          rw [if_pos (Or.inl hh)] at hr
          simp [hr]
        · rename_i hb
          split at hm
          · rename_i hh
            cases hm
            rw [if_pos (Or.inr hh)] at hr
            simp [hr]
          · rename_i hub
            split at hm
            · cases hm
              rw [if_neg (by rintro (h | h); exact hb h; exact hub h)] at hr
              exact hr
            · cases hm
      · rw [upd_ne _ _ hu]

theorem init_masks (c : Cfg) (hn : 31 ≤ c.nsig) (s : S) (h : s.inited = false ∨ Inv c s) :
    (init c s).masks = s.masks := by
  rcases h with h | h
  · exact (init_spec c hn s h).2.1
  · rw [init_inited c s h.inited]

/-- One step changes the mask of a kept signal only by inheritance of a new thread. -/
theorem step_mask (c : Cfg) (hn : 31 ≤ c.nsig) (s : S) (h : s.inited = false ∨ Inv c s) (op : Op)
    (x : Nat) (hx : Spec.Managed c x) (hk : (init c s).keepOpen x = true) (u : Nat) :
    (step c s op).1.masks u x =
      match op with
      | .newThread p ch => if u = ch then s.masks p x else s.masks u x
      | _ => s.masks u x := by
  have inv := init_inv c hn s h
  have hm := init_masks c hn s h
  cases op with
  | sigaction t sig act =>
    simp only [step]; rw [(applSigaction_fields c s t sig act).2.2.2.2, hm]
  | signal t sig hd =>
    simp only [step]; rw [signal_fst, (applSigaction_fields c s t sig _).2.2.2.2, hm]
  | client sig hd act =>
    simp only [step]; rw [(clientSigaction_fields c s sig hd act).2.2.2.1, hm]
  | sigmask t how set =>
    simp only [step]
    rw [sigmask_keeps c s t how set x hx.1 hx.2.1 (by rw [kept_iff inv hx]; exact hk), hm]
  | newThread p ch =>
    simp only [step]
    by_cases hu : u = ch
    · subst hu; simp
    · rw [upd_ne _ _ hu]; simp [hu]
  | shootdown =>
    simp only [step, installShootdown]
    split
    · rename_i h'
      split at h'
      · cases h'; simp only [hm]
      · cases h'
    · rfl

/-! ## Kernel actions -/

/-- The kernel action of `x` is the library's. -/
def KOk (s : S) (x : Nat) : Prop :=
  (s.kernel x).h = .monitor ∧ FlagsOk (s.kernel x).flags ∧ (s.kernel x).mask s.shoot.toNat = true

def KInv (c : Cfg) (shot : Bool) (s : S) : Prop :=
  ∀ x, Spec.Managed c x → KOk s x ∨
    (shot = true ∧ (x : Int) = s.shoot ∧ s.kernel x = ⟨.shootdown, SA_RESTART, emptySet⟩)

theorem init_kinv (c : Cfg) (hn : 31 ≤ c.nsig) (s : S) (hs : s.inited = false) :
    KInv c false (init c s) := by
  intro x hx
  obtain ⟨_, _, h, _⟩ := init_spec c hn s hs
  obtain ⟨_, hk⟩ := h x hx
  left
  refine ⟨by rw [hk], by rw [hk]; exact flagsOk_required, ?_⟩
  rw [hk]; simp [sigaddset]

/-- What a successful application call installs. -/
theorem applSigaction_kernel (c : Cfg) (hn : 31 ≤ c.nsig) (s : S) (h : s.inited = false ∨ Inv c s)
    (t : Nat) (sig : Nat) (hm : Spec.Managed c sig) (a : Act) :
    (applSigaction c s t sig (some a)).1.kernel = upd (init c s).kernel sig
      ⟨.monitor, adjustSaflags a.flags,
        sigaddset (removeClientSignals c (init c s) ((init c s).masks t) a.mask SIG_BLOCK)
          (init c s).shoot.toNat⟩ ∧
    (applSigaction c s t sig (some a)).1.appl = upd (init c s).appl sig a ∧
    (applSigaction c s t sig (some a)).2 = .act 0 (some ((init c s).appl sig)) := by
  have inv := init_inv c hn s h
  have hv := (managed_iff_valid inv hm.1 hm.2.1).1 hm
  unfold applSigaction
  simp only
  rw [if_neg (by have := hm.1; have := hm.2.1; omega)]
  simp only [Int.toNat_natCast, hv.1, hv.2, Bool.false_eq_true, if_false]
  have key : ∀ s' : S, s'.kernel = (init c s).kernel →
      (installKern c s' sig).kernel = upd (init c s).kernel sig ⟨.monitor, (s'.kern sig).1, (s'.kern sig).2⟩ ∧
      (installKern c s' sig).appl = s'.appl := by
    intro s' hk
    obtain ⟨i1, i2⟩ := installKern_fields c s' sig
    constructor
    · funext x
      rw [i2 x, ← hk]
      by_cases hx : x = sig
      · subst hx; simp [hm]
      · simp [hx, upd_ne]
    · rw [i1]
  rcases a with ⟨hd, fl, mk⟩
  rcases hd with _ | _ | id <;>
  · refine ⟨?_, ?_, by first | rfl | trivial⟩
    · refine ((key _ ?_).1).trans ?_
      · rfl
      · simp only [upd_self, adjustSamask]
        congr 3
    · refine ((key _ ?_).2).trans ?_ <;> rfl

theorem clientSigaction_kernel (c : Cfg) (s : S)
    (sig : Int) (hd : Option Nat) (act : Option (BitVec 32 × Set)) (x : Nat) :
    (clientSigaction c s sig hd act).1.kernel x = (init c s).kernel x ∨
    ((x : Int) = sig ∧ ∃ f m, act = some (f, m) ∧ (clientSigaction c s sig hd act).1.kernel x =
      ⟨.monitor, adjustSaflags f, sigaddset m (init c s).shoot.toNat⟩) := by
  unfold clientSigaction
  simp only
  split
  · exact Or.inl rfl
  · rename_i hr
    split
    · exact Or.inl rfl
    · cases act with
      | none => exact Or.inl rfl
      | some a =>
        simp only
        rw [(installKern_fields c _ _).2 x]
        split
        · rename_i hx
          right
          refine ⟨by omega, a.1, a.2, rfl, ?_⟩
          simp [adjustSamask]
        · exact Or.inl rfl

theorem applSigaction_kernel' (c : Cfg) (hn : 31 ≤ c.nsig) (s : S) (h : s.inited = false ∨ Inv c s)
    (t : Nat) (sig : Int) (act : Option Act) (x : Nat) :
    (applSigaction c s t sig act).1.kernel x = (init c s).kernel x ∨
    ((x : Int) = sig ∧ ∃ f m, (applSigaction c s t sig act).1.kernel x =
      ⟨.monitor, adjustSaflags f, sigaddset m (init c s).shoot.toNat⟩) := by
  by_cases hm : ∃ n : Nat, sig = n ∧ Spec.Managed c n
  · obtain ⟨n, rfl, hm⟩ := hm
    cases act with
    | none =>
      left
      unfold applSigaction
      simp only
      split
      · rfl
      · split
        · rfl
        · split
          · split <;> rfl
          · rfl
    | some a =>
      obtain ⟨e, _⟩ := applSigaction_kernel c hn s h t n hm a
      rw [e]
      by_cases hx : x = n
      · subst hx; right; rw [upd_self]; exact ⟨rfl, _, _, rfl⟩
      · left; rw [upd_ne _ _ hx]
  · left
    unfold applSigaction
    simp only
    split
    · rfl
    · rename_i hr
      have hm' : ¬ Spec.Managed c sig.toNat := by
        intro h'; exact hm ⟨sig.toNat, by omega, h'⟩
      split
      · rfl
      · split
        · split
          · rfl
          · split <;> rfl
        · cases act with
          | none => rfl
          | some a =>
            simp only
            rw [(installKern_fields c _ _).2 x, if_neg (fun h => hm' h.2)]
            rcases a with ⟨_ | _ | _, _, _⟩ <;> rfl

theorem init_with_kernel (c : Cfg) (s : S) (h : s.inited = true) (k : Nat → KAct) :
    init c { s with kernel := k } = { s with kernel := k } := init_inited c _ h

/-- `isShoot op`: the library installs its shootdown handler. -/
def isShoot : Op → Bool
  | .shootdown => true
  | _ => false

theorem kok_new {s : S} {x : Nat} {f : BitVec 32} {m : Set} {sh : Int}
    (h : s.kernel x = ⟨.monitor, adjustSaflags f, sigaddset m sh.toNat⟩) (hs : s.shoot = sh) :
    KOk s x := by
  refine ⟨by rw [h], by rw [h]; exact flagsOk_adjust f, ?_⟩
  rw [h, hs]; simp [sigaddset]

theorem kinv_of (c : Cfg) (b : Bool) (s0 s : S) (k : KInv c b s0) (hs : s.shoot = s0.shoot)
    (hk : ∀ x, Spec.Managed c x → s.kernel x = s0.kernel x ∨ KOk s x) : KInv c b s := by
  intro x hx
  rcases hk x hx with h | h
  · rcases k x hx with ⟨a, b, d⟩ | ⟨a, b, d⟩
    · left; exact ⟨by rw [h]; exact a, by rw [h]; exact b, by rw [h, hs]; exact d⟩
    · right; exact ⟨a, by rw [hs]; exact b, by rw [h]; exact d⟩
  · exact Or.inl h

theorem step_kinv (c : Cfg) (hn : 31 ≤ c.nsig) (s : S) (h : s.inited = false ∨ Inv c s) (b : Bool)
    (hk : KInv c b (init c s)) (op : Op) : KInv c (b || isShoot op) (init c (step c s op).1) := by
  have inv := init_inv c hn s h
  cases op with
  | sigaction t sig act =>
    have i2 := applSigaction_inv c hn s h t sig act
    obtain ⟨f1, f2, _⟩ := applSigaction_fields c s t sig act
    simp only [step, isShoot, Bool.or_false]
    rw [init_inited c _ i2.inited]
    refine kinv_of c b _ _ hk f2 fun x hx => ?_
    rcases applSigaction_kernel' c hn s h t sig act x with e | ⟨_, f, m, e⟩
    · exact Or.inl e
    · exact Or.inr (kok_new e f2)
  | signal t sig hd =>
    have i2 := applSigaction_inv c hn s h t sig (some ⟨hd, 0#32, emptySet⟩)
    obtain ⟨f1, f2, _⟩ := applSigaction_fields c s t sig (some ⟨hd, 0#32, emptySet⟩)
    simp only [step, isShoot, Bool.or_false]
    rw [signal_fst, init_inited c _ i2.inited]
    refine kinv_of c b _ _ hk f2 fun x hx => ?_
    rcases applSigaction_kernel' c hn s h t sig (some ⟨hd, 0#32, emptySet⟩) x with e | ⟨_, f, m, e⟩
    · exact Or.inl e
    · exact Or.inr (kok_new e f2)
  | client sig hd act =>
    have i2 := clientSigaction_inv c hn s h sig hd act
    obtain ⟨f1, _⟩ := clientSigaction_fields c s sig hd act
    simp only [step, isShoot, Bool.or_false]
    rw [init_inited c _ i2.inited]
    refine kinv_of c b _ _ hk f1 fun x hx => ?_
    rcases clientSigaction_kernel c s sig hd act x with e | ⟨_, f, m, _, e⟩
    · exact Or.inl e
    · exact Or.inr (kok_new e f1)
  | sigmask t how set =>
    have i2 := sigmask_inv c hn s h t how set
    have f := sigmask_fields c s t how set
    simp only [step, isShoot, Bool.or_false]
    rw [init_inited c _ i2.inited, f]
    exact kinv_of c b _ _ hk rfl fun x _ => Or.inl rfl
  | newThread p ch =>
    simp only [step, isShoot, Bool.or_false]
    rcases h with h | h
    · have := init_kinv c hn { s with masks := upd s.masks ch (s.masks p) } h
      intro x hx
      rcases this x hx with a | ⟨a, _⟩
      · exact Or.inl a
      · cases a
    · rw [init_inited c { s with masks := upd s.masks ch (s.masks p) } h.inited]
      rw [init_inited c s h.inited] at hk
      exact kinv_of c b _ _ hk rfl fun x _ => Or.inl rfl
  | shootdown =>
    simp only [step, installShootdown, isShoot, Bool.or_true]
    have hk' : KInv c true (init c s) := by
      intro x hx
      rcases hk x hx with a | ⟨_, a, b⟩
      · exact Or.inl a
      · exact Or.inr ⟨rfl, a, b⟩
    rw [realSigaction_iff]
    by_cases hm : Spec.Managed c (init c s).shoot.toNat
    · rw [if_pos hm]
      simp only
      have e := init_with_kernel c (init c s) inv.inited
        (upd (init c s).kernel (init c s).shoot.toNat ⟨.shootdown, SA_RESTART, emptySet⟩)
      rw [e]
      intro x hx
      by_cases he : x = (init c s).shoot.toNat
      · right
        refine ⟨rfl, ?_, ?_⟩
        · have := inv.shoot.1
          simp only; omega
        · simp [he]
      · rcases hk' x hx with ⟨a, b, d⟩ | ⟨_, a, _⟩
        · left
          refine ⟨?_, ?_, ?_⟩ <;> simp only [upd_ne _ _ he]
          · exact a
          · exact b
          · exact d
        · exact absurd (by omega) he
    · rw [if_neg hm]; exact hk'

theorem run_kinv (c : Cfg) (hn : 31 ≤ c.nsig) (s : S) (h : s.inited = false ∨ Inv c s) (b : Bool)
    (hk : KInv c b (init c s)) (ops : List Op) :
    KInv c (b || ops.any isShoot) (init c (run c s ops).1) := by
  induction ops generalizing s b with
  | nil => simpa [run] using hk
  | cons op ops ih =>
    have := ih _ (step_ok c hn s h op) _ (step_kinv c hn s h b hk op)
    simpa [run, Bool.or_assoc] using this

/-! ## Simulation of the plain kernel -/

/-- The application's view: `k` is what a plain kernel's table would be. -/
def Sim (c : Cfg) (k : Nat → Act) (s : S) : Prop :=
  (∀ x, Spec.Managed c x → (init c s).appl x = k x) ∧
  (∀ x, avoid x = true → (init c s).kernel x = ⟨.app (k x).h, (k x).flags, (k x).mask⟩)

theorem sim_start (c : Cfg) (hn : 31 ≤ c.nsig) (k : Nat → Act) (m : Nat → Set) :
    Sim c k (start k m) := by
  obtain ⟨_, _, h1, h2, _⟩ := init_spec c hn (start k m) rfl
  refine ⟨fun x hx => ?_, fun x hx => ?_⟩
  · rw [(h1 x hx).1]; rfl
  · rw [h2 x hx]; rfl

theorem avoid_not_managed {c : Cfg} {x : Nat} (h : avoid x = true) : ¬ Spec.Managed c x := by
  rw [avoid_iff] at h; unfold Spec.Managed; omega

/-- Application call against the plain kernel. -/
theorem sim_appl (c : Cfg) (hn : 31 ≤ c.nsig) (h9 : c.kernelOk 9 = true) (h19 : c.kernelOk 19 = true)
    (k : Nat → Act) (s : S) (h : s.inited = false ∨ Inv c s) (hs : Sim c k s)
    (t : Nat) (sig : Int) (act : Option Act) :
    Sim c (Spec.sigaction c k sig act).1 (applSigaction c s t sig act).1 ∧
    (applSigaction c s t sig act).2 = .act (Spec.sigaction c k sig act).2.1 (Spec.sigaction c k sig act).2.2 := by
  have inv := init_inv c hn s h
  have i2 := applSigaction_inv c hn s h t sig act
  unfold Sim
  rw [init_inited c _ i2.inited]
  by_cases hr : sig ≤ 0 ∨ sig ≥ (c.nsig : Int)
  · have e : applSigaction c s t sig act = (init c s, .act (-1) none) := by
      unfold applSigaction; simp only; rw [if_pos hr]
    have e2 : Spec.sigaction c k sig act = (k, -1, none) := by
      unfold Spec.sigaction; rw [if_neg (by omega)]
    rw [e, e2]; exact ⟨hs, rfl⟩
  · obtain ⟨n, rfl⟩ : ∃ n : Nat, sig = n := ⟨sig.toNat, by omega⟩
    have hr1 : 1 ≤ n := by omega
    have hr2 : n < c.nsig := by omega
    by_cases hav : avoid n = true
    · have hok : c.kernelOk n = true := by
        rcases (avoid_iff n).1 hav with rfl | rfl
        · exact h9
        · exact h19
      have hinv : (init c s).invalid n = false := by
        cases hx : (init c s).invalid n with
        | false => rfl
        | true => have := ((inv.invalid n hr1 hr2).1 hx).1; rw [hok] at this; cases this
      cases act with
      | some a =>
        have e : applSigaction c s t n (some a) = (init c s, .act (-1) none) := by
          unfold applSigaction
          simp only [hr, if_false, Int.toNat_natCast, hinv, hav, if_true, Bool.false_eq_true]
        have e2 : Spec.sigaction c k n (some a) = (k, -1, none) := by
          unfold Spec.sigaction
          rw [if_pos ⟨by omega, by omega, by simpa using hok⟩]
          simp only
          rw [if_pos (by have := (avoid_iff n).1 hav; omega)]
        rw [e, e2]; exact ⟨hs, rfl⟩
      | none =>
        have e : applSigaction c s t n none = (init c s, .act 0 (some (k n))) := by
          unfold applSigaction
          simp only [hr, if_false, Int.toNat_natCast, hinv, hav, if_true, Bool.false_eq_true]
          rw [hs.2 n hav]
        have e2 : Spec.sigaction c k n none = (k, 0, some (k n)) := by
          unfold Spec.sigaction
          rw [if_pos ⟨by omega, by omega, by simpa using hok⟩]
          simp only [Int.toNat_natCast]
        rw [e, e2]; exact ⟨hs, rfl⟩
    · have hav' : avoid n = false := by simpa using hav
      by_cases hok : c.kernelOk n = true
      · have hm : Spec.Managed c n := by
          refine ⟨hr1, hr2, hok, ?_, ?_⟩
          · rintro rfl; exact hav rfl
          · rintro rfl; exact hav rfl
        have hinv := ((managed_iff_valid inv hr1 hr2).1 hm).1
        cases act with
        | none =>
          have e : applSigaction c s t n none = (init c s, .act 0 (some (k n))) := by
            unfold applSigaction
            simp only [hr, if_false, Int.toNat_natCast, hinv, hav', Bool.false_eq_true]
            rw [hs.1 n hm]
          have e2 : Spec.sigaction c k n none = (k, 0, some (k n)) := by
            unfold Spec.sigaction
            rw [if_pos ⟨by omega, by omega, by simpa using hok⟩]
            simp only [Int.toNat_natCast]
          rw [e, e2]; exact ⟨hs, rfl⟩
        | some a =>
          obtain ⟨e1, e2, e3⟩ := applSigaction_kernel c hn s h t n hm a
          have e4 : Spec.sigaction c k n (some a) =
              (fun s => if ((s : Nat) : Int) = n then a else k s, 0, some (k n)) := by
            unfold Spec.sigaction
            rw [if_pos ⟨by omega, by omega, by simpa using hok⟩]
            simp only
            rw [if_neg (by have := hm.2.2.2; omega)]
            simp only [Int.toNat_natCast]
          rw [e1, e2, e3, e4, hs.1 n hm]
          refine ⟨⟨fun x hx => ?_, fun x hx => ?_⟩, rfl⟩
          · by_cases hxn : x = n
            · subst hxn; simp
            · have : ¬ (x : Int) = n := by omega
              rw [upd_ne _ _ hxn]; simp only [this, if_false]; exact hs.1 x hx
          · have hxn : x ≠ n := by rintro rfl; exact hav hx
            have : ¬ (x : Int) = n := by omega
            rw [upd_ne _ _ hxn]; simp only [this, if_false]; exact hs.2 x hx
      · have hok' : c.kernelOk n = false := by simpa using hok
        have hinv := (inv.invalid n hr1 hr2).2 ⟨hok', hav'⟩
        have e : applSigaction c s t n act = (init c s, .act (-1) none) := by
          unfold applSigaction
          simp only [hr, if_false, Int.toNat_natCast, hinv, if_true]
        have e2 : Spec.sigaction c k n act = (k, -1, none) := by
          unfold Spec.sigaction
          rw [if_neg (by simp [hok'])]
        rw [e, e2]; exact ⟨hs, rfl⟩

theorem signal_err {c : Cfg} {s s' : S} {t : Nat} {sig : Int} {hd : H} {rc : Int} {old : Option Act}
    (hq : applSigaction c s t sig (some ⟨hd, 0#32, emptySet⟩) = (s', .act rc old)) (hne : rc ≠ 0) :
    signal c s t sig hd = (s', .handler none) := by
  unfold signal
  rw [hq]
  split
  · rename_i h'; cases h'; exact absurd rfl hne
  · rename_i h'; cases h'; rfl

theorem spec_signal_err {c : Cfg} {k k' : Spec.Table} {sig : Int} {hd : H} {rc : Int}
    {old : Option Act}
    (hr : Spec.sigaction c k sig (some ⟨hd, 0#32, emptySet⟩) = (k', rc, old)) (hne : rc ≠ 0) :
    Spec.signal c k sig hd = (k', none) := by
  unfold Spec.signal
  have hr' : Spec.sigaction c k sig (some ⟨hd, 0#32, fun _ => false⟩) = (k', rc, old) := hr
  rw [hr']
  split
  · rename_i h'; cases h'; exact absurd rfl hne
  · rename_i h'; cases h'; rfl

theorem sim_step (c : Cfg) (hn : 31 ≤ c.nsig) (h9 : c.kernelOk 9 = true) (h19 : c.kernelOk 19 = true)
    (k : Nat → Act) (s : S) (h : s.inited = false ∨ Inv c s) (hs : Sim c k s) (op : Op) :
    Sim c (Spec.call c k op).1 (step c s op).1 ∧
    Spec.appView (step c s op).2 = (Spec.call c k op).2 := by
  have inv := init_inv c hn s h
  cases op with
  | sigaction t sig act =>
    obtain ⟨a, b⟩ := sim_appl c hn h9 h19 k s h hs t sig act
    simp only [step, Spec.call]
    exact ⟨a, by rw [b]; rfl⟩
  | signal t sig hd =>
    obtain ⟨a, b⟩ := sim_appl c hn h9 h19 k s h hs t sig (some ⟨hd, 0#32, emptySet⟩)
    simp only [step, Spec.call]
    generalize hr : Spec.sigaction c k sig (some ⟨hd, 0#32, emptySet⟩) = r at a b
    obtain ⟨k', rc, old⟩ := r
    have hrc : (rc = 0 ∧ ∃ o, old = some o) ∨ (rc ≠ 0) := by
      unfold Spec.sigaction at hr
      split at hr
      · simp only at hr
        split at hr
        · right; cases hr; decide
        · left; cases hr; exact ⟨rfl, _, rfl⟩
      · right; cases hr; decide
    generalize hq : applSigaction c s t sig (some ⟨hd, 0#32, emptySet⟩) = q at a b
    obtain ⟨s', rep⟩ := q
    simp only at a b
    subst b
    rcases hrc with ⟨rfl, o, rfl⟩ | hne
    · have e1 : signal c s t sig hd = (s', .handler (some o.h)) := by unfold signal; rw [hq]; rfl
      have e2 : Spec.signal c k sig hd = (k', some o.h) := by
        unfold Spec.signal
        have hr' : Spec.sigaction c k sig (some ⟨hd, 0#32, fun _ => false⟩) = (k', 0, some o) := hr
        rw [hr']; rfl
      rw [e1, e2]; exact ⟨a, rfl⟩
    · rw [signal_err hq hne, spec_signal_err hr hne]; exact ⟨a, rfl⟩
  | client sig hd act =>
    have i2 := clientSigaction_inv c hn s h sig hd act
    simp only [step, Spec.call]
    refine ⟨?_, ?_⟩
    · unfold Sim
      rw [init_inited c _ i2.inited]
      obtain ⟨f1, f2, f3, f4, f5⟩ := clientSigaction_fields c s sig hd act
      refine ⟨fun x hx => by rw [f3]; exact hs.1 x hx, fun x hx => ?_⟩
      rcases clientSigaction_kernel c s sig hd act x with e | ⟨hxs, f, m, _, e⟩
      · rw [e]; exact hs.2 x hx
      · exfalso
        subst hxs
        have e2 : clientSigaction c s x hd act = (init c s, .rc (-1)) := by
          unfold clientSigaction
          simp only [Int.toNat_natCast, hx, true_or, if_true]
          split <;> rfl
        rw [e2] at e
        have h' := hs.2 x hx
        simp only at e
        rw [e] at h'
        injection h' with h1
        cases h1
    · unfold clientSigaction
      simp only
      split
      · rfl
      · split
        · rfl
        · cases act <;> rfl
  | sigmask t how set =>
    have i2 := sigmask_inv c hn s h t how set
    simp only [step, Spec.call]
    refine ⟨?_, ?_⟩
    · unfold Sim
      rw [init_inited c _ i2.inited, sigmask_fields]
      exact hs
    · unfold sigmask
      simp only
      split
      · rfl
      · split <;> rfl
  | newThread p ch =>
    simp only [step, Spec.call]
    refine ⟨?_, rfl⟩
    unfold Sim
    rcases h with h | h
    · obtain ⟨_, _, a1, a2, _⟩ := init_spec c hn s h
      obtain ⟨_, _, b1, b2, _⟩ := init_spec c hn { s with masks := upd s.masks ch (s.masks p) } h
      refine ⟨fun x hx => ?_, fun x hx => ?_⟩
      · rw [(b1 x hx).1, ← hs.1 x hx, (a1 x hx).1]
      · rw [b2 x hx, ← hs.2 x hx, a2 x hx]
    · rw [init_inited c { s with masks := upd s.masks ch (s.masks p) } h.inited]
      have := hs
      unfold Sim at this
      rw [init_inited c s h.inited] at this
      exact this
  | shootdown =>
    simp only [step, Spec.call, installShootdown]
    rw [realSigaction_iff]
    by_cases hm : Spec.Managed c (init c s).shoot.toNat
    · rw [if_pos hm]
      simp only
      refine ⟨?_, rfl⟩
      have e := init_with_kernel c (init c s) inv.inited
        (upd (init c s).kernel (init c s).shoot.toNat ⟨.shootdown, SA_RESTART, emptySet⟩)
      unfold Sim
      rw [e]
      refine ⟨hs.1, fun x hx => ?_⟩
      have : x ≠ (init c s).shoot.toNat := by
        rintro rfl; exact avoid_not_managed hx hm
      simp only [upd_ne _ _ this]; exact hs.2 x hx
    · rw [if_neg hm]; exact ⟨hs, rfl⟩

theorem sim_run (c : Cfg) (hn : 31 ≤ c.nsig) (h9 : c.kernelOk 9 = true) (h19 : c.kernelOk 19 = true)
    (k : Nat → Act) (s : S) (h : s.inited = false ∨ Inv c s) (hs : Sim c k s) (ops : List Op) :
    Sim c (Spec.table c k ops) (run c s ops).1 ∧
    (run c s ops).2.map Spec.appView = Spec.replies c k ops := by
  induction ops generalizing k s with
  | nil => exact ⟨hs, rfl⟩
  | cons op ops ih =>
    obtain ⟨a, b⟩ := sim_step c hn h9 h19 k s h hs op
    obtain ⟨d, e⟩ := ih _ _ (step_ok c hn s h op) a
    exact ⟨d, by simp only [run, Spec.replies, List.map_cons, b, e]⟩

end Libmonitor.Sig
