import Verif.Proc.Start
/-!
# fork (fork.c:306-333): invariants
-/

namespace Libmonitor.Proc

/-- Call number `c` of fork is in progress. -/
def tokFork (c : Nat) : Frame → Nat
  | .fkPre c' | .fkReal c' _ | .fkPost0 c' _ _ | .fkPost c' _ | .fkChild c' => if c' = c then 1 else 0
  | _ => 0

/-- ... and post-fork has not been called. -/
def tokPost (c : Nat) : Frame → Nat
  | .fkPre c' | .fkReal c' _ | .fkPost0 c' _ _ => if c' = c then 1 else 0
  | _ => 0

theorem oneTok_preFork {A : S → Lbl → Prop} (c : Nat) {s : S} (hs : ReachA A s) :
    OneTok (fun _ => 0) (fun g => decide (c < g.nextCall))
      (fun g => occurs (Ev.isPreFork c) g.tr) s := by
  refine oneTok_inv rfl (by simp) rfl ?_ (fun _ => rfl) (fun _ _ => ?_)
    (Nat.le_refl _) (fun _ => ⟨rfl, rfl⟩) (fun _ _ _ => ⟨rfl, ?_⟩) ?_ hs
  · intro f hf
    cases f <;> first | rfl | (simp [Frame.pushable] at hf; done)
  · simp [tokFork, tokPost]
  · simp [G.emit, occurs_cons, Ev.isPreFork]
  · intro g t ok v f g' nx sp h0 h
    cases f <;> fstep_cases h <;>
      simp_all [listInit, G.emit, G.upd, Next.toks, toks, occurs_cons, Ev.isPreFork, tokFork, tokPost]
    all_goals first
      | exact Or.inl rfl
      | exact Or.inl ⟨rfl, by omega⟩
      | (refine ⟨by omega, Or.inl ⟨rfl, by omega⟩⟩; done)
      | (rcases Nat.lt_trichotomy c g.nextCall with h | h | h
         · left; simp [h, Nat.lt_succ_of_lt h, Nat.ne_of_gt h]
         · right; subst h; simp [h0]
         · left; simp [Nat.not_lt.2 (Nat.le_of_lt h), Nat.not_lt.2 h, Nat.ne_of_lt h])

theorem oneTok_postFork {A : S → Lbl → Prop} (c : Nat) {s : S} (hs : ReachA A s) :
    OneTok (tokPost c) (fun g => decide (c < g.nextCall))
      (fun g => occurs (Ev.isPostFork c) g.tr) s := by
  refine oneTok_inv rfl (by simp) rfl ?_ (fun _ => rfl) (fun _ _ => ?_)
    (Nat.le_refl _) (fun _ => ⟨rfl, rfl⟩) (fun _ _ _ => ⟨rfl, ?_⟩) ?_ hs
  · intro f hf
    cases f <;> first | rfl | (simp [Frame.pushable] at hf; done)
  · simp [tokFork, tokPost]
  · simp [G.emit, occurs_cons, Ev.isPostFork]
  · intro g t ok v f g' nx sp h0 h
    cases f <;> fstep_cases h <;>
      simp_all [listInit, G.emit, G.upd, Next.toks, toks, occurs_cons, Ev.isPostFork, tokFork, tokPost]
    all_goals first
      | exact Or.inl rfl
      | exact Or.inl ⟨rfl, by omega⟩
      | (refine ⟨by omega, Or.inl ⟨rfl, by omega⟩⟩; done)
      | (rcases Nat.lt_trichotomy c g.nextCall with h | h | h
         · left; simp [h, Nat.lt_succ_of_lt h, Nat.ne_of_gt h]
         · right; subst h; simp [h0]
         · left; simp [Nat.not_lt.2 (Nat.le_of_lt h), Nat.not_lt.2 h, Nat.ne_of_lt h])

theorem oneTok_forkRet {A : S → Lbl → Prop} (c : Nat) {s : S} (hs : ReachA A s) :
    OneTok (tokFork c) (fun g => decide (c < g.nextCall))
      (fun g => occurs (Ev.isForkRet c) g.tr) s := by
  refine oneTok_inv rfl (by simp) rfl ?_ (fun _ => rfl) (fun _ _ => ?_)
    (Nat.le_refl _) (fun _ => ⟨rfl, rfl⟩) (fun _ _ _ => ⟨rfl, ?_⟩) ?_ hs
  · intro f hf
    cases f <;> first | rfl | (simp [Frame.pushable] at hf; done)
  · simp [tokFork, tokPost]
  · simp [G.emit, occurs_cons, Ev.isForkRet]
  · intro g t ok v f g' nx sp h0 h
    cases f <;> fstep_cases h <;>
      simp_all [listInit, G.emit, G.upd, Next.toks, toks, occurs_cons, Ev.isForkRet, tokFork, tokPost]
    all_goals first
      | exact Or.inl rfl
      | exact Or.inl ⟨rfl, by omega⟩
      | (refine ⟨by omega, Or.inl ⟨rfl, by omega⟩⟩; done)
      | (rcases Nat.lt_trichotomy c g.nextCall with h | h | h
         · left; simp [h, Nat.lt_succ_of_lt h, Nat.ne_of_gt h]
         · right; subst h; simp [h0]
         · left; simp [Nat.not_lt.2 (Nat.le_of_lt h), Nat.not_lt.2 h, Nat.ne_of_lt h])

/-- The order of the parent's part of fork. -/
def forkOrder (old : Hist) (t : Tid) : Ev → Prop
  | .preForkRet c _ => (t, .preFork c) ∈ old
  | .osFork c ret => ret ≠ 0 ∧ ∃ d, (t, .preForkRet c d) ∈ old
  | .postFork c ret d => ∃ a b, old = a ++ (t, .osFork c ret) :: b ∧ (t, .preForkRet c d) ∈ b
  | .forkRet c ret => ret ≠ 0 → ∃ d, (t, .postFork c ret d) ∈ old
  | _ => True

def forkFrame (g : G) (t : Tid) : Frame → Prop
  | .fkPre c => (t, .preFork c) ∈ g.tr
  | .fkReal c d => (t, .preForkRet c d) ∈ g.tr
  | .fkPost0 c ret d => ret ≠ 0 ∧ ∃ a b, g.tr = a ++ (t, .osFork c ret) :: b ∧ (t, .preForkRet c d) ∈ b
  | .fkPost c ret => ret ≠ 0 ∧ ∃ d, (t, .postFork c ret d) ∈ g.tr
  | _ => True

theorem forkFrame_mono {g g' : G} {es : Hist} (h : g'.tr = es ++ g.tr) {t : Tid} {f : Frame}
    (hf : forkFrame g t f) : forkFrame g' t f := by
  have hm : ∀ e, e ∈ g.tr → e ∈ g'.tr := fun e he => by rw [h]; exact List.mem_append_right _ he
  cases f <;> first
    | trivial
    | exact hm _ hf
    | (obtain ⟨h0, d, hd⟩ := hf; exact ⟨h0, d, hm _ hd⟩)
    | (obtain ⟨h0, a, b, hab, hd⟩ := hf
       exact ⟨h0, es ++ a, b, by rw [h, hab]; simp, hd⟩)

theorem forkOrder_inv {A : S → Lbl → Prop} {s : S} (hs : ReachA A s) :
    Always forkOrder s.g.tr ∧ ∀ u h, h ∈ s.th u → forkFrame s.g u h := by
  refine frames_inv (GI := fun g => Always forkOrder g.tr) (FI := forkFrame)
    trivial trivial ?_ (fun _ h => h) (fun _ _ _ => forkFrame_mono (es := []) rfl) ?_ ?_ ?_ ?_
    (fun _ => ⟨trivial, trivial⟩) (fun _ => trivial) hs
  · intro s t f rest ok v g' nx sp _ ht hG hF h
    obtain ⟨es, he⟩ := fstep_tr h
    have hfr : forkFrame s.g t f := hF t f (by rw [ht]; exact List.mem_cons_self)
    refine ⟨?_, fun u h => forkFrame_mono he, ?_, ?_⟩
    · clear he ht hF
      cases f <;> fstep_cases h <;> first
        | exact hG
        | exact ⟨trivial, hG⟩
        | exact ⟨trivial, trivial, hG⟩
        | (simp only [G.emit, G.upd, resetList_tr]; exact ⟨trivial, hG⟩)
        | exact ⟨hfr, hG⟩
        | exact ⟨hfr.2, hG⟩
        | exact ⟨fun _ => hfr.2, hG⟩
        | exact ⟨fun h => absurd rfl h, hG⟩
        | exact ⟨⟨by omega, _, hfr⟩, hG⟩
    · clear he ht hF
      intro l hl h' hl'
      cases f <;> fstep_cases h <;> cases hl <;>
        (try simp only [List.mem_cons, List.not_mem_nil, or_false] at hl') <;>
        (try (rcases hl' with rfl | rfl)) <;> (try subst hl') <;>
        first
        | trivial
        | exact List.mem_cons_self
        | exact ⟨by omega, [], _, rfl, hfr⟩
        | exact ⟨hfr.1, _, List.mem_cons_self⟩
    · intro f0 hsp
      cases f <;> fstep_cases h <;> cases hsp <;> trivial
  · intro g t f _ hp
    cases f <;> first | trivial | (simp [Frame.pushable] at hp; done)
  · intro g t f n _ _; trivial
  · intro g t real h; exact ⟨trivial, h⟩
  · intro g t real u h hf
    exact forkFrame_mono (es := [(t, .forked real)]) rfl hf

theorem toks_pos {tok : Frame → Nat} {f : Frame} {l : List Frame} (h : f ∈ l) :
    tok f ≤ toks tok l := by
  induction l with
  | nil => cases h
  | cons a l ih =>
    rw [toks_cons]
    rcases List.mem_cons.1 h with e | h
    · subst e; omega
    · have := ih h; omega

/-- A frame that holds the token excludes spent ones and other holders. -/
theorem oneTok_holder {tok : Frame → Nat} {flag : G → Bool} {used : G → Nat} {s : S}
    (h : OneTok tok flag used s) {t : Tid} {f : Frame} {rest : List Frame}
    (ht : s.th t = f :: rest) (h1 : tok f = 1) :
    used s.g = 0 ∧ toks tok rest = 0 ∧ ∀ u, u ≠ t → toks tok (s.th u) = 0 := by
  have hle : toks tok (s.th t) = 1 + toks tok rest := by rw [ht, toks_cons, h1]
  cases hc : flag s.g with
  | false => have := (h.1 hc).2 t; omega
  | true =>
    obtain ⟨w, a, b⟩ := h.2 hc
    by_cases e : t = w
    · subst e; exact ⟨by omega, by omega, a⟩
    · have := a t e; omega

/-- The two ways a call of fork ends exclude each other. -/
def forkExcl (old : Hist) (_t : Tid) : Ev → Prop
  | .forkRet c ret => ret = 0 → occurs (Ev.isPostFork c) old = 0
  | .postFork c _ _ => occurs (Ev.isForkRet c) old = 0
  | _ => True

theorem postFork_go {g g' : G} {t : Tid} {ok : Bool} {v : Nat} {f : Frame} {nx : Next}
    {sp : Option Frame} (c : Nat) (h : fstep g t ok v f = some (g', nx, sp)) :
    occurs (Ev.isPostFork c) g'.tr = occurs (Ev.isPostFork c) g.tr ∨
      ∃ ret d, f = .fkPost0 c ret d := by
  cases f <;> fstep_cases h <;> first
    | exact Or.inl rfl
    | (left; simp [G.emit, G.upd, occurs_cons, Ev.isPostFork]; done)
    | skip
  rename_i c' ret d
  by_cases e : c' = c
  · subst e; exact Or.inr ⟨_, _, rfl⟩
  · left; simp [G.emit, occurs_cons, Ev.isPostFork, e]

theorem fkChild_go {g g' : G} {t : Tid} {ok : Bool} {v : Nat} {f : Frame} {nx : Next}
    {sp : Option Frame} (h : fstep g t ok v f = some (g', nx, sp)) (c : Nat) :
    (∀ l, nx = .go l → .fkChild c ∉ l) ∧ sp ≠ some (.fkChild c) := by
  cases f <;> fstep_cases h <;> simp

theorem forkExcl_inv {A : S → Lbl → Prop} {s : S} (hs : ReachA A s) :
    Always forkExcl s.g.tr ∧ ∀ u, ∀ c, .fkChild c ∈ s.th u → occurs (Ev.isPostFork c) s.g.tr = 0 := by
  induction hs with
  | init =>
    refine ⟨trivial, fun u c hm => ?_⟩
    have hm : Frame.fkChild c ∈ (if u = 0 then [Frame.start] else []) := hm
    split at hm <;> simp at hm
  | @next s s' l hr hA hn ih =>
    obtain ⟨iA, iF⟩ := ih
    have hmv := move_of_next hn
    cases hmv with
    | @go t f rest ok v r hd ht hf =>
      obtain ⟨g', nx, sp⟩ := r
      have hmain : (applyRes s t rest (g', nx, sp)).g.tr = g'.tr := by
        rw [applyRes_g]; split <;> rfl
      rw [hmain]
      refine ⟨?_, fun u c hm => ?_⟩
      · have hR := fun c (h1 : tokFork c f = 1) => (oneTok_holder (oneTok_forkRet c hr) ht h1).1
        have hC := fun c (e : f = .fkChild c) => iF t c (by rw [ht, e]; exact List.mem_cons_self)
        have hF := (forkOrder_inv hr).2 t f (by rw [ht]; exact List.mem_cons_self)
        clear hn hmain ht
        cases f <;> fstep_cases hf <;> first
          | exact iA
          | exact ⟨trivial, iA⟩
          | exact ⟨trivial, trivial, iA⟩
          | (simp only [G.emit, G.upd, resetList_tr]; exact ⟨trivial, iA⟩)
          | exact ⟨hR _ (by simp [tokFork]), iA⟩
          | exact ⟨fun _ => hC _ rfl, iA⟩
          | exact ⟨fun e => absurd e hF.1, iA⟩
      · obtain ⟨r1, r2⟩ := fkChild_go hf c
        have hold : .fkChild c ∈ s.th u := by
          rcases applyRes_mem ht hm with h | ⟨l, e, _, h⟩ | ⟨e, _⟩ | ⟨_, e | ⟨_, _, _, _, e⟩⟩
          · exact h
          · exact absurd h (r1 l e)
          · exact absurd e r2
          · cases e
          · cases e
        rcases postFork_go c hf with e | ⟨ret, d, e⟩
        · rw [e]; exact iF u c hold
        · subst e
          obtain ⟨-, h2, h3⟩ := oneTok_holder (oneTok_forkRet c hr) ht (by simp [tokFork])
          have h1 : tokFork c (.fkChild c) = 1 := by simp [tokFork]
          by_cases eu : u = t
          · subst eu
            rw [ht] at hold
            rcases List.mem_cons.1 hold with hold | hold
            · cases hold
            · have := toks_pos (tok := tokFork c) hold; omega
          · have := toks_pos (tok := tokFork c) hold
            have := h3 u eu
            omega
    | @call t f rest a hd ht hf =>
      refine ⟨iA, fun u c hm => ?_⟩
      rcases mem_setTh hm with ⟨e, hm⟩ | ⟨_, hm⟩
      · rcases List.mem_append.1 hm with hm | hm
        · exact absurd (api_pushable hm) (by simp [Frame.pushable])
        · exact iF t c (by rw [ht]; exact hm)
      · exact iF u c hm
    | @unwind t f rest hd ht hf =>
      refine ⟨iA, fun u c hm => ?_⟩
      rcases mem_setTh hm with ⟨e, hm⟩ | ⟨_, hm⟩
      · rcases unwound_cases (f :: rest) with h | ⟨_, n, _, _, h⟩ <;> rw [h] at hm <;> simp at hm
      · exact iF u c hm
    | @deliver t f rest hd ht hon hh =>
      refine ⟨iA, fun u c hm => ?_⟩
      rcases mem_setTh hm with ⟨e, hm⟩ | ⟨_, hm⟩
      · rcases List.mem_cons.1 hm with hm | hm
        · cases hm
        · exact iF t c (by rw [ht]; exact hm)
      · exact iF u c hm
    | @interrupt t f rest hd ht =>
      refine ⟨iA, fun u c hm => ?_⟩
      rcases mem_setTh hm with ⟨e, hm⟩ | ⟨_, hm⟩
      · rcases List.mem_cons.1 hm with hm | hm
        · cases hm
        · exact iF t c (by rw [ht]; exact hm)
      · exact iF u c hm
    | @fork t c' d rest hd ht =>
      refine ⟨⟨trivial, iA⟩, fun u c hm => ?_⟩
      have hp : occurs (Ev.isPostFork c) (s.g.emit t (.forked false)).tr =
          occurs (Ev.isPostFork c) s.g.tr := by
        simp [G.emit, occurs_cons, Ev.isPostFork]
      rw [hp]
      rcases mem_setTh (th := fun _ => []) (t := t)
        (l := Frame.bp0 true d :: .fkChild c' :: rest) hm with ⟨e, hm⟩ | ⟨_, hm⟩
      · rcases List.mem_cons.1 hm with hm | hm
        · cases hm
        rcases List.mem_cons.1 hm with hm | hm
        · injection hm with hm; subst hm
          exact (oneTok_holder (oneTok_postFork c hr) ht (by simp [tokPost])).1
        · exact iF t c (by rw [ht]; exact List.mem_cons_of_mem _ hm)
      · cases hm
    | @realFork t rest hd ht =>
      refine ⟨⟨trivial, iA⟩, fun u c hm => ?_⟩
      have hp : occurs (Ev.isPostFork c) (s.g.emit t (.forked true)).tr =
          occurs (Ev.isPostFork c) s.g.tr := by
        simp [G.emit, occurs_cons, Ev.isPostFork]
      rw [hp]
      rcases mem_setTh (th := fun _ => []) (t := t) (l := Frame.rfReset :: rest) hm with
        ⟨e, hm⟩ | ⟨_, hm⟩
      · rcases List.mem_cons.1 hm with hm | hm
        · cases hm
        · exact iF t c (by rw [ht]; exact List.mem_cons_of_mem _ hm)
      · cases hm

end Libmonitor.Proc
