import Verif.Proc.OwnRec
import Verif.Proc.SpecLife
/-!
# What a created thread does once in its life
-/

namespace Libmonitor.Proc

theorem occursBy_cons (u t : Tid) (p : Ev → Bool) (e : Ev) (tr : Hist) :
    occursBy u p ((t, e) :: tr) = occursBy u p tr + if t = u ∧ p e = true then 1 else 0 := by
  simp [occursBy, List.countP_cons]

theorem occursBy_other {u t : Tid} (p : Ev → Bool) (es : List Ev) (tr : Hist) (h : u ≠ t) :
    occursBy u p (es.map (fun e => (t, e)) ++ tr) = occursBy u p tr := by
  induction es with
  | nil => rfl
  | cons e es ih =>
    rw [List.map_cons, List.cons_append, occursBy_cons, ih]
    simp [Ne.symm h]

theorem occursBy_pos {u : Tid} {p : Ev → Bool} {e : Ev} {tr : Hist} (h : (u, e) ∈ tr)
    (hp : p e = true) : 1 ≤ occursBy u p tr := by
  unfold occursBy
  exact List.countP_pos_iff.2 ⟨_, h, by simp [hp]⟩

/-- Each thread has at most one token, which it gets when it is made. -/
theorem life_inv {A : S → Lbl → Prop} {tok : Frame → Nat} {p : Ev → Bool}
    (hstart : tok .start = 0) (hp : ∀ h, h.pushable = true → tok h = 0) (hcl : ∀ n, tok (.cl0 n) = 0)
    (hbp : ∀ d, tok (.bp0 true d) = 0) (hfc : ∀ c, tok (.fkChild c) = 0) (hrr : tok .rfReset = 0)
    (hpf : ∀ b, p (.forked b) = false)
    (hgo : ∀ {g : G} {t : Tid} {ok : Bool} {v : Nat} {f : Frame} {g' : G} {nx : Next}
      {sp : Option Frame}, fstep g t ok v f = some (g', nx, sp) →
      nx.toks tok f + occursBy t p g'.tr ≤ tok f + occursBy t p g.tr ∧
        (∀ f0, sp = some f0 → tok f0 ≤ 1))
    {s : S} (hs : ReachA A s) (u : Tid) :
    toks tok (s.th u) + occursBy u p s.g.tr ≤ 1 ∧
      (s.g.nextTid ≤ u → toks tok (s.th u) + occursBy u p s.g.tr = 0) := by
  have htd : tok .tdtor = 0 := hp _ rfl
  have hunw : ∀ l, toks tok (unwound l) = 0 := by
    intro l
    rcases unwound_cases l with h | ⟨_, n, _, _, h⟩ <;> rw [h] <;> simp [toks_cons, toks_nil, htd, hcl]
  have hfk : ∀ (u t : Tid) (b : Bool) (g : G),
      occursBy u p (g.emit t (.forked b)).tr = occursBy u p g.tr := by
    intro u t b g
    show occursBy u p ((t, _) :: _) = _
    rw [occursBy_cons, hpf]; simp
  refine (stack_invA (A := A) (GI := fun _ => True)
    (SI := fun g u l => toks tok l + occursBy u p g.tr ≤ 1 ∧
      (g.nextTid ≤ u → toks tok l + occursBy u p g.tr = 0))
    trivial ?_ ?_ ?_ (fun _ h => h) (fun _ _ _ h => h) ?_ ?_ ?_ ?_ hs).2 u
  · rw [toks_cons, hstart, toks_nil]
    exact ⟨Nat.zero_le _, fun _ => rfl⟩
  · intro u _; exact ⟨Nat.zero_le _, fun _ => rfl⟩
  · intro s t f rest ok v g' nx sp hr hA ht _ hS h
    obtain ⟨es, he⟩ := fstep_tr h
    obtain ⟨h1, h2⟩ := hgo h
    have hSt := hS t
    rw [ht, toks_cons] at hSt
    have hlt : ¬ s.g.nextTid ≤ t := fun hc => by
      have := fresh_inv hr t hc
      rw [ht] at this; cases this
    have hnt : s.g.nextTid ≤ g'.nextTid := by
      rcases fstep_spawn h with ⟨_, e⟩ | ⟨_, _, _, e, _⟩ <;> omega
    refine ⟨trivial, fun u hu _ => ?_, ?_, ?_, ?_, ?_⟩
    · rw [he, occursBy_other p es _ hu]
      exact ⟨(hS u).1, fun hc => (hS u).2 (by omega)⟩
    · intro e; subst e
      rw [toks_cons]
      simp only [Next.toks] at h1
      have hnt2 : g'.nextTid = s.g.nextTid := by
        rcases fstep_spawn h with ⟨_, e⟩ | ⟨_, _, _, _, e⟩
        · exact e
        · cases e
      exact ⟨by omega, fun hc => by omega⟩
    · intro e; subst e
      rw [hunw]
      simp only [Next.toks] at h1
      have hnt2 : g'.nextTid = s.g.nextTid := by
        rcases fstep_spawn h with ⟨_, e⟩ | ⟨_, _, _, _, e⟩
        · exact e
        · cases e
      exact ⟨by omega, fun hc => by omega⟩
    · intro l e; subst e
      rw [toks_append]
      simp only [Next.toks] at h1
      refine ⟨by omega, fun hc => ?_⟩
      exact absurd hc (by omega)
    · intro f0 e
      have e0 := (hS s.g.nextTid).2 (Nat.le_refl _)
      have hne : s.g.nextTid ≠ t := fun e => hlt (by rw [← e]; exact Nat.le_refl _)
      rw [he, occursBy_other p es _ hne, toks_cons, toks_nil]
      have := h2 f0 e
      have hgt : g'.nextTid = s.g.nextTid + 1 := by
        rcases fstep_spawn h with ⟨e2, _⟩ | ⟨_, _, _, e2, _⟩
        · rw [e] at e2; cases e2
        · exact e2
      exact ⟨by omega, fun hc => by omega⟩
  · intro s t i f rest pre hr hA ht _ hS _ _ hpre
    have := hS t
    rw [ht] at this
    rw [toks_append, toks_zero (l := pre) (fun f hf => hp f (hpre f hf).1)]
    simpa using this
  · intro s t hr hA _ hne hS
    have := hS t
    rw [hunw]
    exact ⟨by omega, fun hc => by have := this.2 hc; omega⟩
  · intro s t c d rest hr hA ht _ hS
    refine ⟨trivial, ?_, fun u _ => ?_⟩
    · have := hS t
      rw [ht, toks_cons] at this
      rw [hfk, toks_cons, toks_cons, hbp, hfc]
      exact ⟨by omega, fun hc => by have := this.2 hc; omega⟩
    · have := hS u
      rw [hfk, toks_nil]
      exact ⟨by omega, fun hc => by have := this.2 hc; omega⟩
  · intro s t rest hr hA ht _ hS
    refine ⟨trivial, ?_, fun u _ => ?_⟩
    · have := hS t
      rw [ht, toks_cons] at this
      rw [hfk, toks_cons, hrr]
      exact ⟨by omega, fun hc => by have := this.2 hc; omega⟩
    · have := hS u
      rw [hfk, toks_nil]
      exact ⟨by omega, fun hc => by have := this.2 hc; omega⟩

/-- Not yet registered. -/
def tokLink : Frame → Nat
  | .bt0 _ | .bt1 _ | .bt2 _ => 1
  | _ => 0

/-- Init-thread is still to be called. -/
def tokInitTh : Frame → Nat
  | .bt0 _ | .bt1 _ | .bt2 _ | .bt3 _ => 1
  | _ => 0

/-- The start routine is still to be called. -/
def tokStart : Frame → Nat
  | .bt0 _ | .bt1 _ | .bt2 _ | .bt3 _ | .btInit _ | .bt4 _ | .bt5 _ | .ign .. => 1
  | _ => 0

theorem life_linked' {A : S → Lbl → Prop} {s : S} (hs : ReachA A s) (u : Tid) :
    toks tokLink (s.th u) + occursBy u (fun e => e.isLinked || e.isRefused) s.g.tr ≤ 1 ∧
      (s.g.nextTid ≤ u →
        toks tokLink (s.th u) + occursBy u (fun e => e.isLinked || e.isRefused) s.g.tr = 0) := by
  refine life_inv rfl ?_ (fun _ => rfl) (fun _ => rfl) (fun _ => rfl) rfl (fun _ => rfl) ?_ hs u
  · intro f hf
    cases f <;> first | rfl | (simp [Frame.pushable] at hf; done)
  · intro g t ok v f g' nx sp h
    cases f <;> fstep_cases h <;>
      simp [listInit, G.emit, G.upd, Next.toks, toks, occursBy_cons, Ev.isLinked, Ev.isRefused, tokLink] <;>
      omega

theorem life_linked {A : S → Lbl → Prop} {s : S} (hs : ReachA A s) (u : Tid) :
    toks tokLink (s.th u) + occursBy u (fun e => e.isLinked || e.isRefused) s.g.tr ≤ 1 :=
  (life_linked' hs u).1

theorem life_init {A : S → Lbl → Prop} {s : S} (hs : ReachA A s) (u : Tid) :
    toks tokInitTh (s.th u) + occursBy u (fun e => e.isInitThread || e.isRefused) s.g.tr ≤ 1 := by
  refine (life_inv rfl ?_ (fun _ => rfl) (fun _ => rfl) (fun _ => rfl) rfl (fun _ => rfl) ?_ hs u).1
  · intro f hf
    cases f <;> first | rfl | (simp [Frame.pushable] at hf; done)
  · intro g t ok v f g' nx sp h
    cases f <;> fstep_cases h <;>
      simp [listInit, G.emit, G.upd, Next.toks, toks, occursBy_cons, Ev.isInitThread, Ev.isRefused,
        tokInitTh] <;>
      omega

theorem life_start {A : S → Lbl → Prop} {s : S} (hs : ReachA A s) (u : Tid) :
    toks tokStart (s.th u) + occursBy u (fun e => e.isStart || e.isRefused) s.g.tr ≤ 1 := by
  refine (life_inv rfl ?_ (fun _ => rfl) (fun _ => rfl) (fun _ => rfl) rfl (fun _ => rfl) ?_ hs u).1
  · intro f hf
    cases f <;> first | rfl | (simp [Frame.pushable] at hf; done)
  · intro g t ok v f g' nx sp h
    cases f <;> fstep_cases h <;>
      simp [listInit, G.emit, G.upd, Next.toks, toks, occursBy_cons, Ev.isStart, Ev.isRefused, tokStart] <;>
      omega

/-- Thread `u` was made with the record `n`. -/
def madeWith (tr : Hist) (u : Tid) (n : NodeId) : Prop :=
  ∃ w c st ar d, (w, .spawn c u n st ar d) ∈ tr

/-- The order of the events of a thread's life and of the calls of pthread_create. -/
def lifeOrder (old : Hist) (t : Tid) : Ev → Prop
  | .linked k => 0 < k ∧ (∀ u k', (u, .linked k') ∈ old → k' < k) ∧ ∀ u, (u, .shootdown) ∉ old
  | .initThread _ _ => ∃ k, (t, .linked k) ∈ old
  | .initThreadRet _ _ => ∃ k d, (t, .initThread k d) ∈ old
  | .start st ar => (∃ k v, (t, .initThreadRet k v) ∈ old) ∨ ∃ w c, (w, .spawnIgn c t st ar) ∈ old
  | .spawn c u _ st ar d => (t, .createCall c st ar) ∈ old ∧ (t, .preCreateRet c d) ∈ old ∧
      d ≠ ignoreData ∧ ∀ w c' st' ar' o, ¬ madeBy old u w c' st' ar' o
  | .spawnFail c => ∃ d, (t, .preCreateRet c d) ∈ old ∧ d ≠ ignoreData
  | .spawnIgn c u st ar => (t, .createCall c st ar) ∈ old ∧
      ∀ w c' st' ar' o, ¬ madeBy old u w c' st' ar' o
  | .preCreate c => ∃ st ar, (t, .createCall c st ar) ∈ old
  | .preCreateRet c _ => (t, .preCreate c) ∈ old
  | .postCreate c _ => (∃ u n st ar d, (t, .spawn c u n st ar d) ∈ old) ∨ (t, .spawnFail c) ∈ old
  | _ => True

def lifeFrame (g : G) (t : Tid) : Frame → Prop
  | .bt0 n | .bt1 n | .bt2 n => madeWith g.tr t n
  | .bt3 n => madeWith g.tr t n ∧ ∃ k, (t, .linked k) ∈ g.tr
  | .btInit n => madeWith g.tr t n ∧ ∃ k d, (t, .initThread k d) ∈ g.tr
  | .bt4 n | .bt5 n => madeWith g.tr t n ∧ ∃ k v, (t, .initThreadRet k v) ∈ g.tr
  | .ign st ar => ∃ w c, (w, .spawnIgn c t st ar) ∈ g.tr
  | .pc3 c _ st ar | .pc4 c _ st ar | .pcSup0 c _ st ar | .pcSup1 c _ st ar | .pcSup c _ st ar
  | .pc5 c _ st ar | .pcIgn c st ar =>
    (t, .createCall c st ar) ∈ g.tr
  | .pcPre c _ st ar => (t, .createCall c st ar) ∈ g.tr ∧ (t, .preCreate c) ∈ g.tr
  | .mk0 c _ st ar d | .mk1 c _ st ar d | .pc6 c _ _ st ar d | .pcStack c _ _ st ar d
  | .pc7 c _ _ st ar d =>
    (t, .createCall c st ar) ∈ g.tr ∧ (t, .preCreateRet c d) ∈ g.tr ∧ d ≠ ignoreData
  | .pc8 c _ n d => (t, .preCreateRet c d) ∈ g.tr ∧
    ((∃ u st ar, (t, .spawn c u n st ar d) ∈ g.tr) ∨ (t, .spawnFail c) ∈ g.tr)
  | _ => True

def LifeG (g : G) : Prop :=
  Always lifeOrder g.tr ∧ (g.inExit = false → ∀ u, (u, .shootdown) ∉ g.tr) ∧
  (∀ u k, (u, .linked k) ∈ g.tr → k ≤ (g.num : Int)) ∧
  (∀ u w c st ar o, madeBy g.tr u w c st ar o → u < g.nextTid)

theorem lifeFrame_mono {g g' : G} (h : ∀ e, e ∈ g.tr → e ∈ g'.tr) {t : Tid} {f : Frame}
    (hf : lifeFrame g t f) : lifeFrame g' t f := by
  have hm : ∀ {n}, madeWith g.tr t n → madeWith g'.tr t n :=
    fun ⟨w, c, st, ar, d, h1⟩ => ⟨w, c, st, ar, d, h _ h1⟩
  cases f <;> first
    | trivial
    | exact hm hf
    | exact h _ hf
    | exact ⟨h _ hf.1, h _ hf.2⟩
    | exact ⟨h _ hf.1, h _ hf.2.1, hf.2.2⟩
    | (obtain ⟨h1, k, h2⟩ := hf; exact ⟨hm h1, k, h _ h2⟩)
    | (obtain ⟨h1, k, d, h2⟩ := hf; exact ⟨hm h1, k, d, h _ h2⟩)
    | (obtain ⟨w, c, h2⟩ := hf; exact ⟨w, c, h _ h2⟩)
    | (obtain ⟨h1, ⟨u, st, ar, h2⟩ | h2⟩ := hf
       · exact ⟨h _ h1, Or.inl ⟨u, st, ar, h _ h2⟩⟩
       · exact ⟨h _ h1, Or.inr (h _ h2)⟩)

theorem madeBy_cons {tr : Hist} {u w t : Tid} {e : Ev} {c st ar : Nat} {o : Option Data}
    (h : madeBy ((t, e) :: tr) u w c st ar o)
    (he : ∀ c u st ar, (∀ n d, e ≠ .spawn c u n st ar d) ∧ e ≠ .spawnIgn c u st ar) :
    madeBy tr u w c st ar o := by
  cases o with
  | some d =>
    obtain ⟨n, h⟩ := h
    rcases List.mem_cons.1 h with h | h
    · injection h with _ h; exact absurd h.symm ((he c u st ar).1 n d)
    · exact ⟨n, h⟩
  | none =>
    rcases List.mem_cons.1 h with h | h
    · injection h with _ h; exact absurd h.symm (he c u st ar).2
    · exact h

end Libmonitor.Proc
