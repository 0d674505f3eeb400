import Verif.Proc.ForkInv
/-!
# The child of fork (fork.c:315-333, main.c:262-285): invariants
-/

namespace Libmonitor.Proc

/-- The process was made by the call `c` of fork, whose pre-fork returned `d`. -/
def bornBy (t : Tid) (c : Nat) (d : Data) (tr : Hist) : Prop :=
  ∃ b' r, tr = b' ++ (t, .forked false) :: r ∧ (t, .preForkRet c d) ∈ r

/-- ... and init-process has been called with that value. -/
def childCalled (t : Tid) (c : Nat) (tr : Hist) : Prop :=
  ∃ d b b' r, tr = b ++ (t, .initProcess d) :: b' ++ (t, .forked false) :: r ∧
    (t, .preForkRet c d) ∈ r

theorem bornBy_mono {t : Tid} {c : Nat} {d : Data} {tr : Hist} (es : Hist) (h : bornBy t c d tr) :
    bornBy t c d (es ++ tr) := by
  obtain ⟨a, r, rfl, hm⟩ := h
  exact ⟨es ++ a, r, by simp, hm⟩

theorem childCalled_mono {t : Tid} {c : Nat} {tr : Hist} (es : Hist) (h : childCalled t c tr) :
    childCalled t c (es ++ tr) := by
  obtain ⟨d, a, b, r, rfl, hm⟩ := h
  exact ⟨d, es ++ a, b, r, by simp, hm⟩

theorem childBegun_mono {t : Tid} {c : Nat} {tr : Hist} (es : Hist) (h : childBegun t c tr) :
    childBegun t c (es ++ tr) := by
  obtain ⟨d, v, a, b, b', r, rfl, hm⟩ := h
  exact ⟨d, v, es ++ a, b, b', r, by simp, hm⟩

/-- How far the child is, by the frame above that of fork. -/
def above (tr : Hist) (t : Tid) (c : Nat) : Option Frame → Prop
  | some (.bp0 isFork d) => isFork = true ∧ bornBy t c d tr
  | some (.bpReset d) => bornBy t c d tr
  | some (.bpFlags d) => bornBy t c d tr
  | some (.bpCall d) => bornBy t c d tr
  | some .bpCb => childCalled t c tr
  | _ => childBegun t c tr

theorem above_mono {tr : Hist} (es : Hist) {t : Tid} {c : Nat} {o : Option Frame}
    (h : above tr t c o) : above (es ++ tr) t c o := by
  cases o with
  | none => exact childBegun_mono es h
  | some f =>
    cases f <;> first
      | exact childBegun_mono es h
      | exact ⟨h.1, bornBy_mono es h.2⟩
      | exact bornBy_mono es h
      | exact childCalled_mono es h

def CovC (tr : Hist) (t : Tid) : Option Frame → List Frame → Prop
  | _, [] => True
  | o, b :: bs => (∀ c, b = .fkChild c → above tr t c o) ∧ CovC tr t (some b) bs

theorem covC_weaken {tr : Hist} (es : Hist) {t : Tid} {o o' : Option Frame} {l : List Frame}
    (h : CovC tr t o l) (ho : ∀ c, above tr t c o → above (es ++ tr) t c o') :
    CovC (es ++ tr) t o' l := by
  induction l generalizing o o' with
  | nil => trivial
  | cons b bs ih =>
    exact ⟨fun c hb => ho c (h.1 c hb), ih h.2 (fun c h => above_mono es h)⟩

theorem covC_mono {tr : Hist} (es : Hist) {t : Tid} {o : Option Frame} {l : List Frame}
    (h : CovC tr t o l) : CovC (es ++ tr) t o l :=
  covC_weaken es h (fun _ h => above_mono es h)

def childRet (old : Hist) (t : Tid) (e : Ev) : Prop :=
  ∀ c, e = .forkRet c 0 → childBegun t c old

/-- What a step does to the position of the child. -/
theorem above_go {g g' : G} {t : Tid} {ok : Bool} {v : Nat} {f : Frame} {nx : Next}
    {sp : Option Frame} (h : fstep g t ok v f = some (g', nx, sp)) {c : Nat} {l : List Frame}
    (hl : nx = .go l) (ha : above g.tr t c (some f)) : above g'.tr t c l.getLast? := by
  obtain ⟨es, he⟩ := fstep_tr h
  rw [he]
  have hmono := above_mono (es.map fun e => (t, e)) ha
  cases f <;> fstep_cases h <;> cases hl <;> first
    | exact hmono
    | exact hmono.2
    | (exact absurd ha.1 (by assumption))
    | skip
  · -- bpCall
    rw [← he]
    obtain ⟨a, r, hr, hm⟩ := ha
    exact ⟨_, [], a, r, by simp [G.emit, hr], hm⟩
  · -- bpCb
    rw [← he]
    obtain ⟨d, a, b, r, hr, hm⟩ := ha
    exact ⟨d, v, [], a, b, r, by simp [G.emit, G.upd, hr], hm⟩

theorem covC_go {g g' : G} {t : Tid} {ok : Bool} {v : Nat} {f : Frame} {nx : Next}
    {sp : Option Frame} (h : fstep g t ok v f = some (g', nx, sp)) {rest l : List Frame}
    (hl : nx = .go l) (hc : CovC g.tr t none (f :: rest)) : CovC g'.tr t none (l ++ rest) := by
  obtain ⟨es, he⟩ := fstep_tr h
  have hrest : CovC g'.tr t l.getLast? rest := by
    have := covC_weaken (es.map fun e => (t, e)) (o' := l.getLast?) hc.2
      (fun c ha => by rw [← he]; exact above_go h hl ha)
    rw [← he] at this; exact this
  have hl' := fkChild_go h
  have hnc : ∀ c, .fkChild c ∉ l := fun c => (hl' c).1 l hl
  clear h hl hl' hc
  -- push the new frames on top
  have key : ∀ (l : List Frame) (o : Option Frame), (∀ c, .fkChild c ∉ l) →
      CovC g'.tr t (l.getLast?.or o) rest → CovC g'.tr t o (l ++ rest) := by
    intro l
    induction l with
    | nil => intro o _ h; simpa using h
    | cons b bs ih =>
      intro o hn h
      refine ⟨fun c e => absurd (e ▸ List.mem_cons_self) (hn c), ih (some b)
        (fun c hm => hn c (List.mem_cons_of_mem _ hm)) ?_⟩
      cases bs with
      | nil => simpa using h
      | cons b' bs' =>
        rw [List.getLast?_cons_cons] at h
        have : (b' :: bs').getLast? = some ((b' :: bs').getLast (by simp)) :=
          List.getLast?_eq_some_getLast (by simp)
        rw [this] at h ⊢
        exact h
  exact key l none hnc (by simpa using hrest)

theorem child_inv {A : S → Lbl → Prop} {s : S} (hs : ReachA A s) :
    Always childRet s.g.tr ∧ ∀ u, CovC s.g.tr u none (s.th u) := by
  refine stack_inv (GI := fun g => Always childRet g.tr) (SI := fun g t l => CovC g.tr t none l)
    trivial ⟨fun c h => (by cases h), trivial⟩ ?_ (fun _ h => h) (fun _ _ _ h => h)
    ?_ ?_ ?_ ?_ ?_ trivial ?_ ?_ hs
  · intro s t f rest ok v g' nx sp hr _ ht hG hS h
    obtain ⟨es, he⟩ := fstep_tr h
    have hst := hS t
    rw [ht] at hst
    refine ⟨?_, fun u _ hu => ?_, ?_, ?_, ?_, ?_⟩
    · have hF := (forkOrder_inv hr).2 t f (by rw [ht]; exact List.mem_cons_self)
      have h1 : ∀ c, f = .fkChild c → childBegun t c s.g.tr := fun c e => hst.1 c e
      clear hS hst ht he
      have k : ∀ {tr e}, (∀ c, e = .forkRet c 0 → childBegun t c tr) → childRet tr t e := fun h => h
      cases f <;> fstep_cases h <;> first
        | exact hG
        | (refine ⟨k (fun c e => ?_), hG⟩
           injection e with e1 e2
           exact absurd e2 hF.1)
        | (refine ⟨k (fun c e => ?_), hG⟩
           injection e with e1 e2
           subst e1
           exact h1 _ rfl)
        | exact ⟨k (by simp), hG⟩
        | exact ⟨k (by simp), k (by simp), hG⟩
        | (simp only [G.emit, G.upd, resetList_tr]; exact ⟨k (by simp), hG⟩)
    · rw [he]; exact covC_mono _ hu
    · intro _; rw [he]; exact covC_mono _ hst
    · intro hnx
      rw [he]
      refine covC_weaken _ hst.2 (fun c ha => ?_)
      have : above s.g.tr t c none := by
        clear hS hst ht he
        cases f <;> fstep_cases h <;> first | (cases hnx; done) | exact ha
      exact above_mono _ this
    · intro l hl; exact covC_go h hl hst
    · intro f0 hsp
      exact ⟨fun c e => absurd (by rw [hsp, e]) (fkChild_go h c).2, trivial⟩
  · intro g t f rest a _ hf hst
    have hlast : ∃ p q, a.frames = p ++ [q] ∧ (∀ c, .fkChild c ∉ a.frames) := by
      cases a <;> simp only [Api.frames] <;> (try split) <;>
        first
        | exact ⟨[], _, rfl, by simp⟩
        | exact ⟨[_], _, rfl, by simp⟩
    have hff : ∀ c, f ≠ .fkChild c := by intro c e; subst e; cases hf
    obtain ⟨p, q, -, hn⟩ := hlast
    have key : ∀ (l : List Frame) (o : Option Frame), (∀ c, .fkChild c ∉ l) →
        CovC g.tr t o (l ++ f :: rest) := by
      intro l
      induction l with
      | nil => intro o _; exact ⟨fun c e => absurd e (hff c), hst.2⟩
      | cons b bs ih =>
        intro o hn
        exact ⟨fun c e => absurd (e ▸ List.mem_cons_self) (hn c),
          ih _ (fun c hm => hn c (List.mem_cons_of_mem _ hm))⟩
    exact key _ _ hn
  · intro g t rest _ _ hst
    exact ⟨fun c e => (by cases e), covC_weaken [] hst (fun c h => h)⟩
  · intro g t rest _ hst
    exact ⟨fun c e => (by cases e), covC_weaken [] hst (fun c h => h)⟩
  · intro g t l _ _
    rcases unwound_cases l with h | ⟨_, n, _, _, h⟩ <;> rw [h] <;> simp [CovC]
  · intro s t real _ _ h
    exact ⟨fun c e => (by cases e), h⟩
  · intro s t c d rest hr _ ht _ hst
    have hF := (forkOrder_inv hr).2 t _ (by rw [ht]; exact List.mem_cons_self)
    refine ⟨fun c' e => (by cases e), fun c' e => ?_, ?_⟩
    · injection e with e; subst e
      exact ⟨rfl, [], s.g.tr, rfl, hF⟩
    · exact covC_weaken [_] hst.2 (fun c h => above_mono (o := some (.fkReal _ _)) [_] h)
  · intro s t rest hr _ ht _ hst
    refine ⟨fun c' e => (by cases e), ?_⟩
    exact covC_weaken [_] hst.2 (fun c h => above_mono (o := some .rf) [_] h)

end Libmonitor.Proc
