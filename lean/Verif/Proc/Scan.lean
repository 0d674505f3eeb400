import Verif.Proc.Done
import Verif.Proc.Once
import Verif.Proc.BroadInv
/-!
# The walk over the thread list at exit
-/

namespace Libmonitor.Proc

theorem ev_step {g g' : G} {t : Tid} {ok : Bool} {v : Nat} {f : Frame} {nx : Next}
    {sp : Option Frame} (h : fstep g t ok v f = some (g', nx, sp)) :
    ∃ es : List Ev, g'.tr = es.map (fun e => (t, e)) ++ g.tr ∧
      own g'.tr = es.map (fun e => (t, e)) ++ own g.tr ∧ (f ≠ .sd2 → Ev.shootdown ∉ es) := by
  have : ∃ es : List Ev, g'.tr = es.map (fun e => (t, e)) ++ g.tr ∧
      (∀ e ∈ es, e.isForked = false) ∧ (f ≠ .sd2 → Ev.shootdown ∉ es) := by
    cases f <;> fstep_cases h <;> first
      | exact ⟨[], rfl, by simp, by simp⟩
      | exact ⟨[_], rfl, by simp [Ev.isForked], by simp⟩
      | exact ⟨[_, _], rfl, by simp [Ev.isForked], by simp⟩
      | exact ⟨[_], by simp only [G.emit, G.upd, resetList_tr]; rfl, by simp [Ev.isForked], by simp⟩
      | exact ⟨[], by simp [resetList_tr, listInit, G.upd], by simp, by simp⟩
  obtain ⟨es, h1, h2, h3⟩ := this
  exact ⟨es, h1, by rw [h1]; exact own_append h2, h3⟩

/-- Thread `u` was registered and had entered its start routine when `w` began the exit cleanup. -/
def Early (g : G) (w u : Tid) : Prop :=
  ∃ a b, own g.tr = a ++ (w, Ev.shootdown) :: b ∧ (∃ k, (u, Ev.linked k) ∈ b) ∧
    ∃ st ar, (u, Ev.start st ar) ∈ b

theorem early_back {g g' : G} {t : Tid} {ok : Bool} {v : Nat} {f : Frame} {nx : Next}
    {sp : Option Frame} (h : fstep g t ok v f = some (g', nx, sp)) {w u : Tid}
    (hne : w = t → f ≠ .sd2) (he : Early g' w u) : Early g w u := by
  obtain ⟨a, b, h1, h2⟩ := he
  obtain ⟨es, _, h3, h4⟩ := ev_step h
  rw [h3] at h1
  rcases List.append_eq_append_iff.1 h1 with ⟨a', e1, e2⟩ | ⟨c, e1, e2⟩
  · exact ⟨a', b, e2, h2⟩
  · cases c with
    | nil => exact ⟨[], b, e2.symm, h2⟩
    | cons x c =>
      exfalso
      have hx : x = (w, Ev.shootdown) := (List.cons.inj e2).1.symm
      have hm : (w, Ev.shootdown) ∈ es.map (fun e => (t, e)) := by
        rw [e1, hx]; exact List.mem_append_right _ List.mem_cons_self
      obtain ⟨e, k1, k2⟩ := List.mem_map.1 hm
      injection k2 with k2 k3
      subst k3
      exact h4 (hne k2.symm) k1

theorem Early.mem {g : G} {w u : Tid} (h : Early g w u) : (w, Ev.shootdown) ∈ own g.tr ∧
    (∃ k, (u, Ev.linked k) ∈ own g.tr) ∧ ∃ st ar, (u, Ev.start st ar) ∈ own g.tr := by
  obtain ⟨a, b, h1, ⟨k, h2⟩, st, ar, h3⟩ := h
  have hb : ∀ e, e ∈ b → e ∈ own g.tr := fun e he => by
    rw [h1]; exact List.mem_append_right _ (List.mem_cons_of_mem _ he)
  exact ⟨by rw [h1]; exact List.mem_append_right _ List.mem_cons_self, ⟨k, hb _ h2⟩, st, ar, hb _ h3⟩

/-- Thread `u` has returned from fini-thread in this process. -/
def RetO (g : G) (u : Tid) : Prop := ∃ k, (u, Ev.finiThreadRet k) ∈ own g.tr

theorem RetO.mono {g g' : G} {t : Tid} {ok : Bool} {v : Nat} {f : Frame} {nx : Next}
    {sp : Option Frame} (h : fstep g t ok v f = some (g', nx, sp)) {u : Tid} (hr : RetO g u) :
    RetO g' u := by
  obtain ⟨k, hr⟩ := hr
  exact ⟨k, own_mem_fstep h _ hr⟩

/-- What a thread other than the initial one does, it does in the process it was made in. -/
theorem own_thread {s : S} (hs : ReachA Clean s) :
    ((∀ u e, (u, e) ∈ s.g.tr → u < s.g.nextTid) ∧
      ∀ u k, (u, Ev.linked k) ∈ own s.g.tr → ∀ e, (u, e) ∈ s.g.tr → (u, e) ∈ own s.g.tr) ∧
    ∀ u f, f ∈ s.th u → u ≠ mainOf s.g.tr → ∀ e, (u, e) ∈ s.g.tr → (u, e) ∈ own s.g.tr := by
  refine frames_invA (A := Clean)
    (GI := fun g => (∀ u e, (u, e) ∈ g.tr → u < g.nextTid) ∧
      ∀ u k, (u, Ev.linked k) ∈ own g.tr → ∀ e, (u, e) ∈ g.tr → (u, e) ∈ own g.tr)
    (FI := fun g u _ => u ≠ mainOf g.tr → ∀ e, (u, e) ∈ g.tr → (u, e) ∈ own g.tr)
    ?_ ?_ ?_ (fun _ h => h) (fun _ _ _ h => h) ?_ ?_ ?_ ?_ hs
  · exact ⟨fun _ _ h => (by cases h), fun _ _ h => (by cases h)⟩
  · intro _ _ h; cases h
  · intro s t f rest ok v g' nx sp hr hA ht hG hF h
    have hft : f ∈ s.th t := by rw [ht]; exact List.mem_cons_self
    have htl : t < s.g.nextTid := by
      rcases Nat.lt_or_ge t s.g.nextTid with h | h
      · exact h
      · rw [fresh_inv hr t h] at ht; cases ht
    obtain ⟨es, e1, e2, _⟩ := ev_step h
    have hmo := mainOf_fstep h
    have hnt := nextTid_mono h
    have key : ∀ u, (∀ e, (u, e) ∈ s.g.tr → (u, e) ∈ own s.g.tr) →
        ∀ e, (u, e) ∈ g'.tr → (u, e) ∈ own g'.tr := by
      intro u hu e he
      rw [e1] at he; rw [e2]
      rcases List.mem_append.1 he with he | he
      · exact List.mem_append_left _ he
      · exact List.mem_append_right _ (hu e he)
    refine ⟨⟨?_, ?_⟩, ?_, ?_, ?_, ?_, ?_⟩
    · intro u e he
      rw [e1] at he
      rcases List.mem_append.1 he with he | he
      · obtain ⟨_, _, k⟩ := List.mem_map.1 he
        injection k with k _; omega
      · have := hG.1 u e he; omega
    · intro u k hk
      refine key u ?_
      rcases own_linked_new h hk with hk | ⟨e, n, e3, _⟩
      · exact hG.2 u k hk
      · subst e; subst e3
        exact hF u _ hft (thr_ne_main hr hft (n := n) rfl rfl)
    · intro u h' hm _ hu
      rw [hmo] at hu
      exact key u (hF u h' hm hu)
    · intro _ hu; rw [hmo] at hu; exact key t (hF t f hft hu)
    · intro l _ h' _ hu; rw [hmo] at hu; exact key t (hF t f hft hu)
    · intro h' _ hu
      refine key _ (fun e he => ?_)
      exact absurd (hG.1 _ e he) (Nat.lt_irrefl _)
    · intro _ h' _ hu; rw [hmo] at hu; exact key t (hF t f hft hu)
  · intro s t i h hr hA hG hne hF _ _ _ _ hu
    obtain ⟨f0, r0, e0⟩ := List.exists_cons_of_ne_nil hne
    exact hF t f0 (by rw [e0]; exact List.mem_cons_self) hu
  · intro s t hr hA hG hne hF h hm hu
    obtain ⟨f0, r0, e0⟩ := List.exists_cons_of_ne_nil hne
    exact hF t f0 (by rw [e0]; exact List.mem_cons_self) hu
  · intro s t c d rest hr hA ht hG hF
    have htl : t < s.g.nextTid := by
      rcases Nat.lt_or_ge t s.g.nextTid with h | h
      · exact h
      · rw [fresh_inv hr t h] at ht; cases ht
    refine ⟨⟨fun u e he => ?_, fun u k hk => by cases hk⟩, fun h hm hu => ?_⟩
    · rcases List.mem_cons.1 he with he | he
      · injection he with he _; rw [he]; exact htl
      · exact hG.1 u e he
    · exact absurd rfl hu
  · intro s t rest hr hA ht hG hF
    have htl : t < s.g.nextTid := by
      rcases Nat.lt_or_ge t s.g.nextTid with h | h
      · exact h
      · rw [fresh_inv hr t h] at ht; cases ht
    refine ⟨⟨fun u e he => ?_, fun u k hk => by cases hk⟩, fun h hm hu => ?_⟩
    · rcases List.mem_cons.1 he with he | he
      · injection he with he _; rw [he]; exact htl
      · exact hG.1 u e he
    · exact absurd rfl hu

theorem ret_own {s : S} (hs : ReachA Clean s) {u : Tid} {k : Int}
    (hl : (u, Ev.linked k) ∈ own s.g.tr) (h : Ret s.g u) : RetO s.g u := by
  obtain ⟨k', h⟩ := h
  exact ⟨k', (own_thread hs).1.2 u k hl _ h⟩

/-- Main's record on the list. -/
def MainD (g : G) : Prop :=
  ∀ w, (w, Ev.shootdown) ∈ own g.tr → .main ∈ g.list →
    g.main.appl = true ∧ (g.main.finiD = true → RetO g (mainOf g.tr))

theorem mainFiniD {g g' : G} {t : Tid} {ok : Bool} {v : Nat} {f : Frame} {nx : Next}
    {sp : Option Frame} (hrec : f.threadRec ≠ some .main) (hfree : .main ∉ g.free)
    (h : fstep g t ok v f = some (g', nx, sp)) (ha : g'.main.finiD = true) :
    g.main.finiD = true ∨ ∃ src k, f = .finCb .main src k ∧ RetO g' t := by
  by_cases hf : ∃ src k, f = .finCb .main src k
  · obtain ⟨src, k, e⟩ := hf
    refine Or.inr ⟨src, k, e, ?_⟩
    subst e
    fstep_cases h <;> exact ⟨_, by simp only [G.emit, own, Ev.isForked]; exact List.mem_cons_self⟩
  · left
    cases f <;> fstep_cases h <;> first
      | exact ha
      | (simp only [G.main, G.emit, G.upd, listInit] at ha ⊢; split at ha <;> first
          | exact ha
          | (cases ha; done)
          | (rename_i e; exact absurd (by rw [e]; rfl) hrec)
          | (rename_i e; exact absurd ⟨_, _, by rw [e]⟩ hf))
      | (simp only [G.main, G.emit, G.upd, resetList, resetMain, if_true] at ha ⊢
         (try split at ha) <;> (try split at ha) <;> (try split at ha) <;> first
           | exact ha
           | (cases ha; done))

theorem main_new {g g' : G} {t : Tid} {ok : Bool} {v : Nat} {f : Frame} {nx : Next}
    {sp : Option Frame} (h : fstep g t ok v f = some (g', nx, sp)) (hr : f.resetting = false)
    (h2 : ∀ n, f = .bt2 n → n ≠ .main) (hm : .main ∈ g'.list) :
    .main ∈ g.list ∨ (f = .sd3 ∧ g'.main.appl = true ∧ g'.main.finiD = false) := by
  cases f <;> fstep_cases h <;> first
    | exact Or.inl hm
    | (simp [Frame.resetting] at hr; done)
    | exact Or.inl (List.mem_of_mem_erase hm)
    | (right; simp [G.main, G.upd]; done)
    | (left; rcases List.mem_cons.1 hm with e | e
       · exact absurd e.symm (h2 _ rfl)
       · exact e)
    | (simp [listInit] at hm; done)

theorem mainD_inv {s : S} (hs : ReachA Clean s) : MainD s.g := by
  refine glob_inv (A := Clean) (GI := MainD) (fun _ h => by cases h) ?_ (fun _ h => h)
    (fun _ _ _ h => by cases h) hs
  intro s t f rest ok v g' nx sp hr hA ht hG h w hw hm
  have hft : f ∈ s.th t := by rw [ht]; exact List.mem_cons_self
  have hmo := mainOf_fstep h
  have hrec := (rec_inv hr).2 t f hft
  have hfree := (rec_inv hr).1
  cases hb : born s.g.tr with
  | true =>
    rcases shoot_new h hw with hw | ⟨e, _⟩
    · rw [own_born hb] at hw; cases hw
    · have := (birth_step hr ht hb).2.1
      subst e; cases this
  | false =>
    have hnr := not_resetting hr hft hb
    have h2 : ∀ n, f = .bt2 n → n ≠ .main := fun n e => by
      subst e; exact claims_ne_main hr hft (Or.inr rfl)
    rcases main_new h hnr h2 hm with hm | ⟨_, h1, h2⟩
    · rcases shoot_new h hw with hw | ⟨e, _⟩
      · obtain ⟨i1, i2⟩ := hG w hw hm
        refine ⟨mainAppl_keep hrec hfree hnr h i1, fun hd => ?_⟩
        rw [hmo]
        rcases mainFiniD hrec hfree h hd with hd | ⟨src, k, e, hd⟩
        · exact (i2 hd).mono h
        · subst e
          have hu : t = mainOf s.g.tr := by
            by_cases es : src = .cleanup
            · subst es
              exact absurd rfl (claims_ne_main hr hft (n := .main) (Or.inr rfl))
            · rcases held_inv hr hft (n := .main) (by simp [Frame.holds, es]) with ⟨_, h⟩ | ⟨h, _⟩
              · exact h
              · exact absurd rfl h
          rw [← hu]; exact hd
      · subst e
        have h0 := (oneTok_holder (oneTok_shoot hr) ht rfl).1
        refine absurd hm (main_list hr (fun w hw => ?_))
        have := occurs_pos hw (p := Ev.isShootdown) rfl
        omega
    · exact ⟨h1, fun h => by rw [h2] at h; cases h⟩

/-- The one call of the exit cleanup, up to its end. -/
def tokAll : Frame → Nat
  | .ep2 .. | .epBegin _ | .sd0 | .sd1 | .sd2 | .sd3 | .sdScan .. | .sdKill .. | .sdScan2 .. | .sdDone _ | .sdMy _ => 1
  | .fin0 _ src | .finCb _ src _ => if src = .winner then 1 else 0
  | _ => 0

theorem oneTok_all {A : S → Lbl → Prop} {s : S} (hs : ReachA A s) :
    OneTok tokAll (fun g => g.cookie) (fun _ => 0) s := by
  refine oneTok_inv rfl (by simp) rfl ?_ (fun _ => rfl) (fun _ _ => ?_)
    (Nat.le_refl _) (fun _ => ⟨rfl, rfl⟩) (fun _ _ _ => ⟨rfl, ?_⟩) ?_ hs
  · intro f hf
    cases f <;> first | rfl | (simp [Frame.pushable] at hf; done)
  · simp [tokAll]
  · simp
  · intro g t ok v f g' nx sp h0 h
    cases f <;> fstep_cases h <;>
      simp [listInit, G.emit, G.upd, Next.toks, toks, tokAll, resetList]
    all_goals first
      | (simp_all; done)
      | (split <;> simp_all; done)
      | (left; split <;> omega)
      | skip

theorem tokAll_shooting {f : Frame} (h : f.shooting = true) : tokAll f = 1 := by
  cases f <;> first
    | rfl
    | (cases h; done)
    | (rename_i src _; cases src <;> first | rfl | cases h)
    | (rename_i src; cases src <;> first | rfl | cases h)

/-- Threads on the list: the list is in use. -/
theorem linked_used {s : S} (hs : ReachA Clean s) {u : Tid} {k : Int}
    (h : (u, Ev.linked k) ∈ own s.g.tr) : s.g.hasUsed = true := by
  refine glob_inv (A := Clean) (GI := fun g => ∀ u k, (u, Ev.linked k) ∈ own g.tr → g.hasUsed = true)
    (fun _ _ h => by cases h) ?_ (fun _ h => h) (fun _ _ _ _ h => by cases h) hs u k h
  intro s t f rest ok v g' nx sp hr hA ht hG h u k hk
  have hft : f ∈ s.th t := by rw [ht]; exact List.mem_cons_self
  have hnr : f.resetting = false := by
    cases hres : f.resetting with
    | false => rfl
    | true =>
      have hb := ((base_inv hr).2 t f hft).2.1 hres
      rcases own_linked_new h hk with hk | ⟨_, n, e, _⟩
      · rw [own_born hb] at hk; cases hk
      · subst e; cases hres
  refine hasUsed_keep hnr h ?_
  rcases own_linked_new h hk with hk | ⟨_, n, e, _⟩
  · exact hG u k hk
  · subst e
    exact (((base_inv hr).2 t _ hft).1 (thr_ne_main hr hft (n := n) rfl rfl)).1

/-- There is somebody to wait for. -/
def Cnd (g : G) (w : Tid) : Prop :=
  (∃ u, Early g w u) ∨ ((w, Ev.shootdown) ∈ own g.tr ∧ w ≠ mainOf g.tr)

theorem cnd_facts {s : S} (hs : ReachA Clean s) {w : Tid} (h : Cnd s.g w) :
    (w, Ev.shootdown) ∈ own s.g.tr ∧ s.g.hasUsed = true ∧ s.g.inExit = true ∧ born s.g.tr = false := by
  have hw : (w, Ev.shootdown) ∈ own s.g.tr := by
    rcases h with ⟨u, h⟩ | h
    · exact h.mem.1
    · exact h.1
  obtain ⟨h1, h2, h3⟩ := shoot_used hs hw
  refine ⟨hw, ?_, h1, h2⟩
  rcases h with ⟨u, h⟩ | h
  · obtain ⟨k, hk⟩ := h.mem.2.1
    exact linked_used hs hk
  · exact h3 h.2

theorem cnd_back {g g' : G} {t : Tid} {ok : Bool} {v : Nat} {f : Frame} {nx : Next}
    {sp : Option Frame} (h : fstep g t ok v f = some (g', nx, sp)) {w : Tid}
    (hne : w = t → f ≠ .sd2) (hc : Cnd g' w) : Cnd g w := by
  rcases hc with ⟨u, hc⟩ | ⟨h1, h2⟩
  · exact Or.inl ⟨u, early_back h hne hc⟩
  · rw [mainOf_fstep h] at h2
    rcases shoot_new h h1 with h1 | ⟨e1, e2⟩
    · exact Or.inr ⟨h1, h2⟩
    · exact absurd e1 (hne e2)

def Seen (g : G) (w : Tid) (my : Option NodeId) (l : List NodeId) : Prop :=
  ∀ n ∈ l, n ≠ .main → (g.nodes n).self = some w → my = some n

def DoneL (g : G) (w : Tid) (l : List NodeId) : Prop :=
  (∀ n ∈ l, n ≠ .main → ∀ u, (g.nodes n).self = some u → u ≠ w → Early g w u → RetO g u) ∧
  (.main ∈ l → w ≠ mainOf g.tr → RetO g (mainOf g.tr))

def GaveUp (g : G) (w : Tid) : Prop := (w, Ev.gaveUp) ∈ own g.tr

structure WalkF (g : G) (w : Tid) (f : Frame) : Prop where
  scan : ∀ my todo unf unst, f = .sdScan my todo unf unst →
    ∃ pre, g.list = pre ++ todo ∧ Seen g w my pre ∧ (unf = 0 → DoneL g w pre)
  scan2 : ∀ my n todo unf unst, f = .sdScan2 my n todo unf unst ∨ f = .sdKill my n todo unf unst →
    ∃ pre, g.list = pre ++ n :: todo ∧ Seen g w my pre ∧ (unf = 0 → DoneL g w pre) ∧
      (n ≠ .main → (g.nodes n).self ≠ some w)
  done : ∀ my, f = .sdDone my ∨ f = .sdMy my →
    Seen g w my g.list ∧ (GaveUp g w ∨ DoneL g w g.list)
  fin : (∃ n, f = .fin0 n .winner) ∨ (∃ n k, f = .finCb n .winner k) →
    GaveUp g w ∨ DoneL g w g.list
  main : f.shooting = true → f ≠ .sd3 → w ≠ mainOf g.tr → .main ∈ g.list

theorem walk_none {g : G} {w : Tid} {f : Frame} (h : f.shooting = false) : WalkF g w f := by
  refine ⟨?_, ?_, ?_, ?_, ?_⟩
  · intro _ _ _ _ e; subst e; cases h
  · rintro _ _ _ _ _ (e | e) <;> subst e <;> cases h
  · rintro _ (e | e) <;> subst e <;> cases h
  · rintro (⟨_, e⟩ | ⟨_, _, e⟩) <;> subst e <;> cases h
  · intro h1; rw [h] at h1; cases h1

/-- The list of threads does not change while there is somebody to wait for. -/
theorem scan_list {s : S} (hr : ReachA Clean s) {t : Tid} {f : Frame} {rest : List Frame}
    {ok : Bool} {v : Nat} {g' : G} {nx : Next} {sp : Option Frame} (ht : s.th t = f :: rest)
    (h : fstep s.g t ok v f = some (g', nx, sp)) {w : Tid} (hc : Cnd s.g w) (h3 : f ≠ .sd3) :
    g'.list = s.g.list ∧ ∀ n ∈ s.g.list, n ≠ .main →
      (g'.nodes n).self = (s.g.nodes n).self := by
  have hft : f ∈ s.th t := by rw [ht]; exact List.mem_cons_self
  obtain ⟨h1, h2, h4, hb⟩ := cnd_facts hr hc
  exact ⟨list_same h (not_resetting hr hft hb) h2 h4 h3, fun n hn hm =>
    (list_self_keep hr ht h hb hm hn (fun _ => h4)).1⟩

theorem Seen.keep {g g' : G} {w : Tid} {my : Option NodeId} {l l' : List NodeId} (h : Seen g w my l)
    (hs : ∀ n ∈ l', n ≠ .main → (g'.nodes n).self = (g.nodes n).self) (hl : ∀ n ∈ l, n ∈ l') :
    Seen g' w my l :=
  fun n hn hm hw => h n hn hm (by rw [← hs n (hl n hn) hm]; exact hw)

theorem DoneL.keep {g g' : G} {t : Tid} {ok : Bool} {v : Nat} {f : Frame} {nx : Next}
    {sp : Option Frame} (hf : fstep g t ok v f = some (g', nx, sp)) {w : Tid}
    (hne : w = t → f ≠ .sd2) {l l' : List NodeId} (h : DoneL g w l)
    (hs : ∀ n ∈ l', n ≠ .main → (g'.nodes n).self = (g.nodes n).self) (hl : ∀ n ∈ l, n ∈ l') :
    DoneL g' w l := by
  refine ⟨fun n hn hm u hu hw he => ?_, fun hm hw => ?_⟩
  · exact (h.1 n hn hm u (by rw [← hs n (hl n hn) hm]; exact hu) hw (early_back hf hne he)).mono hf
  · rw [mainOf_fstep hf] at hw ⊢
    exact (h.2 hm hw).mono hf

theorem walk_keep {s : S} (hr : ReachA Clean s) {t : Tid} {f : Frame} {rest : List Frame}
    {ok : Bool} {v : Nat} {g' : G} {nx : Next} {sp : Option Frame} (ht : s.th t = f :: rest)
    (hf : fstep s.g t ok v f = some (g', nx, sp)) {w : Tid} (hne : w = t → f ≠ .sd2)
    (hc : Cnd s.g w) (h3 : f ≠ .sd3) {h : Frame} (hF : WalkF s.g w h) : WalkF g' w h := by
  obtain ⟨hl, hsk⟩ := scan_list hr ht hf hc h3
  have hg : GaveUp s.g w → GaveUp g' w := fun h => own_mem_fstep hf _ h
  refine ⟨?_, ?_, ?_, ?_, ?_⟩
  · intro my todo unf unst e
    obtain ⟨pre, k1, k2, k3⟩ := hF.scan my todo unf unst e
    have hp : ∀ n ∈ pre, n ∈ s.g.list := fun n hn => by
      rw [k1]; exact List.mem_append_left _ hn
    exact ⟨pre, by rw [hl, k1], k2.keep hsk hp, fun e => (k3 e).keep hf hne hsk hp⟩
  · intro my n todo unf unst e
    obtain ⟨pre, k1, k2, k3, k4⟩ := hF.scan2 my n todo unf unst e
    have hp : ∀ n ∈ pre, n ∈ s.g.list := fun n hn => by
      rw [k1]; exact List.mem_append_left _ hn
    refine ⟨pre, by rw [hl, k1], k2.keep hsk hp, fun e => (k3 e).keep hf hne hsk hp, fun hm => ?_⟩
    rw [hsk n (by rw [k1]; exact List.mem_append_right _ List.mem_cons_self) hm]
    exact k4 hm
  · intro my e
    obtain ⟨k1, k2⟩ := hF.done my e
    rw [hl]
    exact ⟨k1.keep hsk (fun _ h => h), k2.imp hg (fun h => h.keep hf hne hsk (fun _ h => h))⟩
  · intro e
    rw [hl]
    exact (hF.fin e).imp hg (fun h => h.keep hf hne hsk (fun _ h => h))
  · intro e1 e2 e3
    rw [mainOf_fstep hf] at e3
    rw [hl]; exact hF.main e1 e2 e3

theorem walk_new {g g' : G} {t : Tid} {ok : Bool} {v : Nat} {f : Frame} {l : List Frame}
    {sp : Option Frame} (h : fstep g t ok v f = some (g', .go l, sp)) {h' : Frame} (hm : h' ∈ l)
    (hs : h'.shooting = true) (hf : f.shooting = false) : h' = .sd3 := by
  cases f <;> first | (cases hf; done) | skip
  all_goals fstep_cases h <;> simp only [List.mem_cons, List.not_mem_nil, or_false] at hm <;>
      (try (rcases hm with hm | hm)) <;> (try subst hm) <;> first
      | rfl
      | (cases hs; done)
      | (cases hm; done)
      | skip
  all_goals
    rename_i src
    first
    | (cases src <;> first | (cases hs; done) | (cases hf; done))
    | skip

theorem shooting_go {g g' : G} {t : Tid} {ok : Bool} {v : Nat} {f : Frame} {nx : Next}
    {sp : Option Frame} (h : fstep g t ok v f = some (g', nx, sp)) (hf : f.shooting = true) :
    ∃ l, nx = .go l := by
  cases f <;> first | (cases hf; done) | (fstep_cases h <;> exact ⟨_, rfl⟩)

theorem spawn_walk {g g' : G} {t : Tid} {ok : Bool} {v : Nat} {f h : Frame} {nx : Next}
    (hf : fstep g t ok v f = some (g', nx, some h)) : h.shooting = false := by
  cases f <;> fstep_cases hf <;> rfl

/-- The step of the walk. -/
theorem walk_step {s : S} (hr : ReachA Clean s) {t : Tid} {f : Frame} {rest : List Frame}
    {ok : Bool} {v : Nat} {g' : G} {l : List Frame} {sp : Option Frame} (ht : s.th t = f :: rest)
    (h : fstep s.g t ok v f = some (g', .go l, sp)) (hf : f.shooting = true)
    (hF : Cnd s.g t → WalkF s.g t f) {h' : Frame} (hm : h' ∈ l) (hc : Cnd g' t) :
    WalkF g' t h' := by
  have hft : f ∈ s.th t := by rw [ht]; exact List.mem_cons_self
  have h2 : f ≠ .sd2 := by intro e; subst e; cases hf
  have hc0 := cnd_back h (fun _ => h2) hc
  obtain ⟨hw, hus, hix, hb⟩ := cnd_facts hr hc0
  have hown := (tsd_inv hr).1.2 hus hb
  have hmo := mainOf_fstep h
  replace hF := hF hc0
  by_cases h3 : f = .sd3
  · subst h3
    fstep_cases h
    · rw [List.mem_singleton] at hm; subst hm
      rename_i hself
      refine ⟨?_, by simp, by simp, by simp, ?_⟩
      · intro my todo unf unst e
        injection e with e1 e2 e3 e4
        subst e2
        exact ⟨[], rfl, fun _ h => (by cases h), fun _ => ⟨fun _ h => (by cases h), fun h => by cases h⟩⟩
      · intro _ _ hne
        rw [hown.1] at hself
        injection hself with hself
        exact absurd hself.symm hne
    · rw [List.mem_singleton] at hm; subst hm
      refine ⟨?_, by simp, by simp, by simp, ?_⟩
      · intro my todo unf unst e
        injection e with e1 e2 e3 e4
        subst e2
        exact ⟨[], rfl, fun _ h => (by cases h), fun _ => ⟨fun _ h => (by cases h), fun h => by cases h⟩⟩
      · intro _ _ _; exact List.mem_cons_self
  · have hk := walk_keep hr ht h (fun _ => h2) hc0 h3 hF
    have hself2 : ∀ {n m : NodeId}, n ∈ s.g.list → m ∈ s.g.list → m ≠ .main →
        (s.g.nodes n).self = some t → (s.g.nodes m).self = some t → n = m := by
      intro n m hn hm hm0 hsn hsm
      obtain ⟨_, u, k1, k2, k3⟩ := list_self hr hb hm hm0
      rw [hsm] at k2; injection k2 with k2; subst k2
      by_cases hn0 : n = .main
      · subst hn0
        have := hown.1
        simp only [G.main] at this
        rw [hsn] at this; injection this with this
        exact absurd this k1
      · obtain ⟨_, u, k4, k5, k6⟩ := list_self hr hb hn hn0
        rw [hsn] at k5; injection k5 with k5; subst k5
        rw [k3] at k6; injection k6 with k6; exact k6.symm
    have hD := listD_inv hr hb
    have hI := listI_inv hr hb
    have hM := mainD_inv hr t hw
    cases f <;> first | (cases hf; done) | (exact absurd rfl h3) | skip
    case sdScan my todo unf unst =>
      obtain ⟨pre, k1, k2, k3⟩ := hF.scan my todo unf unst rfl
      have hmain := hk.main rfl (by simp)
      cases todo with
      | nil =>
        rw [List.append_nil] at k1
        have done : ∀ g'' : G, g''.list = s.g.list → g''.nodes = s.g.nodes → Seen g'' t my g''.list := by
          intro g'' e1 e2
          rw [e1, k1]
          intro n hn hm hs
          rw [e2] at hs
          exact k2 n hn hm hs
        fstep_cases h
        · rw [List.mem_singleton] at hm; subst hm
          rename_i hu
          refine ⟨by simp, by simp, ?_, by simp, fun _ _ => hmain⟩
          rintro my' (e | e) <;> cases e
          exact ⟨done _ rfl rfl, Or.inr (by rw [k1]; exact k3 hu)⟩
        · rw [List.mem_singleton] at hm; subst hm
          refine ⟨by simp, by simp, ?_, by simp, fun _ _ => hmain⟩
          rintro my' (e | e) <;> cases e
          exact ⟨done _ rfl rfl, Or.inl (by
            simp only [GaveUp, G.emit, own, Ev.isForked]; exact List.mem_cons_self)⟩
        · rw [List.mem_singleton] at hm; subst hm
          refine ⟨?_, by simp, by simp, by simp, fun _ _ => hmain⟩
          intro my' todo' unf' unst' e
          injection e with e1 e2 e3 e4
          subst e2
          exact ⟨[], rfl, fun _ h => (by cases h),
            fun _ => ⟨fun _ h => (by cases h), fun h => by cases h⟩⟩
      | cons n todo =>
        have hnl : n ∈ s.g.list := by rw [k1]; exact List.mem_append_right _ List.mem_cons_self
        have hpl : ∀ m ∈ pre, m ∈ s.g.list := fun m hm => by rw [k1]; exact List.mem_append_left _ hm
        obtain ⟨pre', j1, j2, j3⟩ := hk.scan my (n :: todo) unf unst rfl
        fstep_cases h
        · rw [List.mem_singleton] at hm; subst hm
          rename_i hself
          refine ⟨?_, by simp, by simp, by simp, fun _ _ => hmain⟩
          intro my' todo' unf' unst' e
          injection e with e1 e2 e3 e4
          subst e1; subst e2; subst e3
          refine ⟨pre ++ [n], by simp [k1], ?_, fun hu => ⟨?_, ?_⟩⟩
          · intro m hm hm0 hs
            have hml : m ∈ s.g.list := by
              rcases List.mem_append.1 hm with hm | hm
              · exact hpl m hm
              · rw [List.mem_singleton.1 hm]; exact hnl
            rw [hself2 hnl hml hm0 hself hs]
          · intro m hm hm0 u hu' huw he
            rcases List.mem_append.1 hm with hm | hm
            · exact (k3 hu).1 m hm hm0 u hu' huw he
            · rw [List.mem_singleton.1 hm, hself] at hu'
              injection hu' with hu'
              exact absurd hu'.symm huw
          · intro hm hne
            rcases List.mem_append.1 hm with hm | hm
            · exact (k3 hu).2 hm hne
            · rw [← List.mem_singleton.1 hm] at hself
              have := hown.1
              simp only [G.main] at this
              rw [hself] at this; injection this with this
              exact absurd this hne
        · rw [List.mem_singleton] at hm; subst hm
          rename_i hself _ _
          refine ⟨by simp, ?_, by simp, by simp, fun _ _ => hmain⟩
          rintro my' n' todo' unf' unst' (e | e) <;> cases e
          exact ⟨pre, k1, k2, k3, fun _ => hself⟩
        · rw [List.mem_singleton] at hm; subst hm
          rename_i hself _ _
          refine ⟨by simp, ?_, by simp, by simp, fun _ _ => hmain⟩
          rintro my' n' todo' unf' unst' (e | e) <;> cases e
          exact ⟨pre', j1, j2, j3, fun _ => hself⟩
        · rw [List.mem_singleton] at hm; subst hm
          rename_i hself happl
          refine ⟨?_, by simp, by simp, by simp, fun _ _ => hmain⟩
          intro my' todo' unf' unst' e
          injection e with e1 e2 e3 e4
          subst e1; subst e2; subst e3
          refine ⟨pre ++ [n], by simp [k1], ?_, fun hu => ⟨?_, ?_⟩⟩
          · intro m hm hm0 hs
            rcases List.mem_append.1 hm with hm | hm
            · exact k2 m hm hm0 hs
            · rw [List.mem_singleton.1 hm] at hs
              exact absurd hs hself
          · intro m hm hm0 u hu' huw he
            rcases List.mem_append.1 hm with hm | hm
            · exact (k3 hu).1 m hm hm0 u hu' huw he
            · rw [List.mem_singleton.1 hm] at hu' hm0
              obtain ⟨_, _, st, ar, hst⟩ := he.mem
              exact absurd ((hI.1 n hnl hm0 u hu').2.1 st ar ((own_sublist _).subset hst)) happl
          · intro hm hne
            rcases List.mem_append.1 hm with hm | hm
            · exact (k3 hu).2 hm hne
            · have e := List.mem_singleton.1 hm
              subst e
              exact absurd (hM hnl).1 happl
    case sdKill my n todo unf unst =>
      have hmain := hk.main rfl (by simp)
      have hk2 := hk.scan2 my n todo unf unst (Or.inr rfl)
      fstep_cases h
      rw [List.mem_singleton] at hm; subst hm
      refine ⟨by simp, ?_, by simp, by simp, fun _ _ => hmain⟩
      rintro my' n' todo' unf' unst' (e | e) <;> cases e
      exact hk2
    case sdScan2 my n todo unf unst =>
      obtain ⟨pre, k1, k2, k3, k4⟩ := hF.scan2 my n todo unf unst (Or.inl rfl)
      have hmain := hk.main rfl (by simp)
      have hnl : n ∈ s.g.list := by rw [k1]; exact List.mem_append_right _ List.mem_cons_self
      have hseen : Seen s.g t my (pre ++ [n]) := by
        intro m hm hm0 hs
        rcases List.mem_append.1 hm with hm | hm
        · exact k2 m hm hm0 hs
        · rw [List.mem_singleton.1 hm] at hs hm0
          exact absurd hs (k4 hm0)
      fstep_cases h
      · rename_i hfd
        rw [List.mem_singleton] at hm; subst hm
        refine ⟨?_, by simp, by simp, by simp, fun _ _ => hmain⟩
        intro my' todo' unf' unst' e
        injection e with e1 e2 e3 e4
        subst e1; subst e2; subst e3
        refine ⟨pre ++ [n], by simp [k1], hseen, fun hu => ⟨?_, ?_⟩⟩
        · intro m hm hm0 u hu' huw he
          rcases List.mem_append.1 hm with hm | hm
          · exact (k3 hu).1 m hm hm0 u hu' huw he
          · rw [List.mem_singleton.1 hm] at hu' hm0
            obtain ⟨_, ⟨k, hk⟩, _⟩ := he.mem
            exact ret_own hr hk (hD.1 n hnl hm0 u hu' hfd)
        · intro hm hne
          rcases List.mem_append.1 hm with hm | hm
          · exact (k3 hu).2 hm hne
          · have e := List.mem_singleton.1 hm
            subst e
            exact (hM hnl).2 hfd
      · rw [List.mem_singleton] at hm; subst hm
        refine ⟨?_, by simp, by simp, by simp, fun _ _ => hmain⟩
        intro my' todo' unf' unst' e
        injection e with e1 e2 e3 e4
        subst e1; subst e2; subst e3
        exact ⟨pre ++ [n], by simp [k1], hseen, fun hu => by omega⟩
    case sdDone my =>
      have hd := hk.done my (Or.inl rfl)
      have hmain := hk.main rfl (by simp)
      fstep_cases h
      rw [List.mem_singleton] at hm; subst hm
      refine ⟨by simp, by simp, ?_, by simp, fun _ _ => hmain⟩
      rintro my' (e | e) <;> cases e
      exact hd
    case sdMy my =>
      have hd := hk.done my (Or.inr rfl)
      have hmain := hk.main rfl (by simp)
      fstep_cases h
      · cases hm
      · cases hm
      · rw [List.mem_singleton] at hm; subst hm
        exact ⟨by simp, by simp, by simp, fun _ => hd.2, fun _ _ => hmain⟩
    case fin0 n src =>
      have hs : src = .winner := by cases src <;> first | rfl | cases hf
      subst hs
      have hd := hk.fin (Or.inl ⟨_, rfl⟩)
      have hmain := hk.main rfl (by simp)
      fstep_cases h
      rw [List.mem_singleton] at hm; subst hm
      exact ⟨by simp, by simp, by simp, fun _ => hd, fun _ _ => hmain⟩
    case finCb n src k =>
      have hs : src = .winner := by cases src <;> first | rfl | cases hf
      subst hs
      fstep_cases h <;> first | (cases hm; done) | contradiction

theorem walk_inv {s : S} (hs : ReachA Clean s) {w : Tid} {f : Frame} (hf : f ∈ s.th w)
    (hc : Cnd s.g w) : WalkF s.g w f := by
  refine (frames_invA (A := Clean) (GI := fun _ => True) (FI := fun g w f => Cnd g w → WalkF g w f)
    trivial (fun _ => walk_none rfl) ?_ (fun _ h => h) (fun _ _ _ h => ?_) ?_ ?_ ?_ ?_ hs).2 w f hf hc
  · intro s t f rest ok v g' nx sp hr hA ht _ hF h
    have hft : f ∈ s.th t := by rw [ht]; exact List.mem_cons_self
    refine ⟨trivial, ?_, ?_, ?_, ?_, ?_⟩
    · intro u h' hm hrest hc
      cases hsh : h'.shooting with
      | false => exact walk_none hsh
      | true =>
        have hex : tokAll f ≠ 1 := by
          intro e1
          obtain ⟨_, j1, j2⟩ := oneTok_holder (oneTok_all hr) ht e1
          have h1 := tokAll_shooting hsh
          by_cases e : u = t
          · have := toks_mem (tok := tokAll) (hrest e)
            omega
          · have := toks_mem (tok := tokAll) hm
            rw [j2 u e] at this
            omega
        have h2 : f ≠ .sd2 := by intro e; subst e; exact hex rfl
        have h3 : f ≠ .sd3 := by intro e; subst e; exact hex rfl
        have hc0 := cnd_back h (fun _ => h2) hc
        exact walk_keep hr ht h (fun _ => h2) hc0 h3 (hF u h' hm hc0)
    · intro e hc
      cases hsh : f.shooting with
      | false => exact walk_none hsh
      | true =>
        obtain ⟨l, e2⟩ := shooting_go h hsh
        rw [e] at e2; cases e2
    · intro l e h' hm hc
      subst e
      cases hsh : f.shooting with
      | true => exact walk_step hr ht h hsh (hF t f hft) hm hc
      | false =>
        cases hsh' : h'.shooting with
        | false => exact walk_none hsh'
        | true =>
          have e := walk_new h hm hsh' hsh
          subst e
          exact ⟨by simp, by simp, by simp, by simp, fun _ h => absurd rfl h⟩
    · intro h' e hc; subst e; exact walk_none (spawn_walk h)
    · intro e h' hm hc
      refine walk_none ?_
      rcases unwound_cases rest with e | ⟨f', n, h1, h2, e⟩ <;> rw [e] at hm <;> simp at hm
      · subst hm; rfl
      · rcases hm with hm | hm <;> subst hm <;> rfl
  · exact fun hc => ⟨(h hc).1, (h hc).2, (h hc).3, (h hc).4, (h hc).5⟩
  · intro s t i h hr hA _ hne hF _ _ hp _ hc
    refine walk_none ?_
    cases h <;> first | rfl | (cases hp; done) | (simp [Frame.pushable] at hp; done)
  · intro s t hr hA _ hne hF h' hm hc
    refine walk_none ?_
    rcases unwound_cases (s.th t) with e | ⟨f', n, h1, h2, e⟩ <;> rw [e] at hm <;> simp at hm
    · subst hm; rfl
    · rcases hm with hm | hm <;> subst hm <;> rfl
  · intro s t c d rest hr hA ht _ hF
    refine ⟨trivial, fun h hm hc => ?_⟩
    exfalso
    rcases hc with ⟨u, hc⟩ | ⟨hc, _⟩
    · have := hc.mem.1; cases this
    · cases hc
  · intro s t rest hr hA ht _ hF
    refine ⟨trivial, fun h hm hc => ?_⟩
    exfalso
    rcases hc with ⟨u, hc⟩ | ⟨hc, _⟩
    · have := hc.mem.1; cases this
    · cases hc

end Libmonitor.Proc
