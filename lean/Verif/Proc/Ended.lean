import Verif.Proc.Kill
import Verif.Proc.SpecEnded
/-!
# Threads that have ended were finished: lemmas
-/

namespace Libmonitor.Proc

theorem clean_of_end {s : S} (hs : ReachA CleanEnd s) : ReachA Clean s :=
  reach_mono (fun _ _ h => h.1) hs

/-- A stack with the start routine in it ends in it. -/
theorem shape_last {l : List Frame} (h : Shape l) {n : NodeId} (hm : .btApp n ∈ l) :
    l.getLast? = some (.btApp n) := by
  induction l with
  | nil => cases hm
  | cons f l ih =>
    rcases List.mem_cons.1 hm with e | hm
    · subst e
      rw [h.1 rfl]; rfl
    · have := ih h.2.2 hm
      cases l with
      | nil => cases hm
      | cons a l => rw [List.getLast?_cons_cons]; exact this

theorem unwound_app {l : List Frame} (h : Shape l) {n : NodeId} (hm : .btApp n ∈ l) :
    unwound l = [.cl0 n, .tdtor] := by
  unfold unwound
  rw [shape_last h hm]

/-- The cleanup routine is above the destructors. -/
theorem shape_tdtor {l : List Frame} (h : Shape l) {f : Frame} (hm : f ∈ l) (hc : f.cleanup = true) :
    .tdtor ∈ l := by
  induction l with
  | nil => cases hm
  | cons a l ih =>
    rcases List.mem_cons.1 hm with e | hm
    · subst e
      rw [h.2.1 hc]; simp
    · exact List.mem_cons_of_mem _ (ih h.2.2 hm)

theorem occursBy_two {u : Tid} {p : Ev → Bool} {e e' : Ev} {tr : Hist} (h : (u, e) ∈ tr)
    (h' : (u, e') ∈ tr) (hp : p e = true) (hp' : p e' = true) (hne : e ≠ e') :
    2 ≤ occursBy u p tr := by
  induction tr with
  | nil => cases h
  | cons x tr ih =>
    obtain ⟨t, a⟩ := x
    rw [occursBy_cons]
    rcases List.mem_cons.1 h with e1 | h1 <;> rcases List.mem_cons.1 h' with e2 | h2
    · cases e1; cases e2; exact absurd rfl hne
    · cases e1
      have := occursBy_pos h2 hp'
      rw [if_pos ⟨rfl, hp⟩]; omega
    · cases e2
      have := occursBy_pos h1 hp
      rw [if_pos ⟨rfl, hp'⟩]; omega
    · have := ih h1 h2
      omega

/-- A thread is registered only before the exit cleanup. -/
theorem linked_shoot {A : S → Lbl → Prop} {s : S} (hs : ReachA A s) {u : Tid} {k : Int}
    (h : (u, .linked k) ∈ own s.g.tr) (hx : s.g.inExit = true) : ∃ w, (w, .shootdown) ∈ own s.g.tr := by
  refine glob_inv (A := A) (GI := fun g => (u, Ev.linked k) ∈ own g.tr → g.inExit = true →
    ∃ w, (w, Ev.shootdown) ∈ own g.tr) (fun h => by cases h) ?_ (fun _ h => h) ?_ hs h hx
  · intro s t f rest ok v g' nx sp hr hA ht hG h hl hx
    by_cases hl0 : (u, Ev.linked k) ∈ own s.g.tr
    · by_cases h0 : s.g.inExit = true
      · obtain ⟨w, hw⟩ := hG hl0 h0
        exact ⟨w, own_mem_fstep h _ hw⟩
      · have e : f = .sd2 := by
          cases f <;> first
            | rfl
            | (exfalso
               fstep_cases h <;> first
                 | exact h0 hx
                 | (simp [G.emit, G.upd, resetList] at hx
                    try split at hx
                    all_goals exact h0 hx))
        subst e
        fstep_cases h
        exact ⟨t, List.mem_cons_self⟩
    · obtain ⟨_, n, e, _⟩ := (own_linked_new h hl).resolve_left hl0
      subst e
      fstep_cases h
      · rw [G.emit, own_cons _ rfl] at hl
        rcases List.mem_cons.1 hl with hl | hl
        · injection hl with _ e; cases e
        · exact absurd hl hl0
      · exact absurd hl hl0
      · have hx : s.g.inExit = true := hx
        contradiction
  · intro s t real hr hG h; cases h

/-- What fini-thread was called with. -/
def FinB (g : G) (u : Tid) (k : Int) : Prop :=
  ∃ d, (u, .linked k) ∈ own g.tr ∧ (u, .initThreadRet k d) ∈ own g.tr ∧
    (u, .finiThread k d .cleanup) ∈ own g.tr

/-- On the way to the end of fini-thread. -/
def OwesFini (g : G) (u : Tid) (f : Frame) : Prop :=
  match f with
  | .btApp _ | .cl0 _ | .fin0 _ .cleanup => True
  | .finCb _ .cleanup k => FinB g u k
  | _ => False

def EndS (g : G) (u : Tid) (l : List Frame) : Prop :=
  u ≠ mainOf g.tr → (∃ k, (u, .linked k) ∈ own g.tr) → (∃ st ar, (u, .start st ar) ∈ own g.tr) →
    g.inExit = false →
    (∃ k, FinB g u k ∧ (u, .finiThreadRet k) ∈ own g.tr) ∨ ∃ f ∈ l, OwesFini g u f

theorem FinB.mono {g g' : G} {t : Tid} {ok : Bool} {v : Nat} {f : Frame} {nx : Next}
    {sp : Option Frame} (h : fstep g t ok v f = some (g', nx, sp)) {u : Tid} {k : Int}
    (hr : FinB g u k) : FinB g' u k := by
  obtain ⟨d, h1, h2, h3⟩ := hr
  have := own_mem_fstep h
  exact ⟨d, this _ h1, this _ h2, this _ h3⟩

theorem OwesFini.mono {g g' : G} {t : Tid} {ok : Bool} {v : Nat} {f : Frame} {nx : Next}
    {sp : Option Frame} (h : fstep g t ok v f = some (g', nx, sp)) {u : Tid} {a : Frame}
    (hr : OwesFini g u a) : OwesFini g' u a := by
  unfold OwesFini at hr ⊢
  split at hr <;> first | trivial | exact hr.mono h | exact hr.elim

theorem owes_unwound {s : S} {A : S → Lbl → Prop} (hs : ReachA A s) {t : Tid} {g' : G}
    (htd : .tdtor ∉ s.th t) {l : List Frame} (hl : Shape l) (hsub : ∀ f ∈ l, f ∈ s.th t)
    (h : ∃ f ∈ l, OwesFini g' t f) : ∃ f ∈ unwound l, OwesFini g' t f := by
  obtain ⟨f, hm, hd⟩ := h
  have hno : ∀ {a : Frame}, a ∈ l → a.cleanup = true → False := fun ha hc =>
    htd (shape_tdtor (shape_inv hs t) (hsub _ ha) hc)
  unfold OwesFini at hd
  split at hd
  · rw [unwound_app hl hm]
    exact ⟨_, List.mem_cons_self, trivial⟩
  · exact (hno hm rfl).elim
  · exact (hno hm rfl).elim
  · exact (hno hm rfl).elim
  · exact hd.elim

theorem endS_inv {s : S} (hs : ReachA CleanEnd s) (u : Tid) : EndS s.g u (s.th u) := by
  refine (stack_invA (A := CleanEnd) (GI := fun _ => True) (SI := EndS) trivial ?_ ?_ ?_
    (fun _ h => h) (fun _ _ _ h => h) ?_ ?_ ?_ ?_ hs).2 u
  · intro h; exact absurd rfl h
  · intro _ _ _ ⟨_, h⟩; cases h
  · intro s t f rest ok v g' nx sp hr hA ht _ hS h
    have hc := clean_of_end hr
    have hft : f ∈ s.th t := by rw [ht]; exact List.mem_cons_self
    have hmo := mainOf_fstep h
    have hmem := own_mem_fstep h
    have hsh := shape_inv hr t
    rw [ht] at hsh
    have hx0 : g'.inExit = false → s.g.inExit = false := fun e => by
      cases e2 : s.g.inExit with
      | false => rfl
      | true => rw [inExit_keep h e2] at e; cases e
    -- nothing new about other threads
    have hold : ∀ {u}, u ≠ mainOf g'.tr → (∃ k, (u, .linked k) ∈ own g'.tr) →
        (∃ st ar, (u, .start st ar) ∈ own g'.tr) → g'.inExit = false →
        ((u = t → (∀ n, f ≠ .bt2 n) ∧ (∀ n, f ≠ .bt5 n) ∧ ∀ st ar, f ≠ .ign st ar)) →
        (∃ k, FinB g' u k ∧ (u, .finiThreadRet k) ∈ own g'.tr) ∨ ∃ a ∈ s.th u, OwesFini s.g u a := by
      intro u hu ⟨k, hk⟩ ⟨st, ar, hst⟩ hx hne
      rw [hmo] at hu
      have hk : (u, Ev.linked k) ∈ own s.g.tr := by
        rcases own_linked_new h hk with hk | ⟨e, n, e2, _⟩
        · exact hk
        · exact absurd e2 ((hne e).1 n)
      have hst : (u, Ev.start st ar) ∈ own s.g.tr := by
        have h1 : (u, Ev.start st ar) ∈ s.g.tr := by
          rcases start_new h ((own_sublist _).subset hst) with h1 | ⟨e, ⟨n, e2, _⟩ | ⟨st, ar, e2⟩⟩
          · exact h1
          · exact absurd e2 ((hne e).2.1 n)
          · exact absurd e2 ((hne e).2.2 st ar)
        exact (own_thread hc).1.2 u k hk _ h1
      rcases hS u hu ⟨k, hk⟩ ⟨st, ar, hst⟩ (hx0 hx) with ⟨k', h1, h2⟩ | h1
      · exact Or.inl ⟨k', h1.mono h, hmem _ h2⟩
      · exact Or.inr h1
    -- the steps of the thread itself that matter
    have hspecial : ∀ {l}, nx = .go l → EndS g' t (l ++ rest) := by
      intro l e hu hk hst hx
      subst e
      have hu' := hu
      rw [hmo] at hu'
      by_cases hb2 : ∃ n, f = .bt2 n
      · exfalso
        obtain ⟨n, e⟩ := hb2
        obtain ⟨st, ar, hst⟩ := hst
        subst e
        rcases start_new h ((own_sublist _).subset hst) with h1 | ⟨_, ⟨n, e2, _⟩ | ⟨st, ar, e2⟩⟩
        · have hlife := life_start hr t
          rw [ht, toks_cons] at hlife
          have := occursBy_pos (p := fun e => e.isStart || e.isRefused) h1 rfl
          simp only [tokStart] at hlife
          omega
        · cases e2
        · cases e2
      by_cases hb5 : ∃ n, f = .bt5 n
      · obtain ⟨n, e⟩ := hb5
        subst e
        fstep_cases h
        exact Or.inr ⟨_, List.mem_cons_self, trivial⟩
      by_cases hig : ∃ st ar, f = .ign st ar
      · exfalso
        obtain ⟨st, ar, e⟩ := hig
        obtain ⟨k, hk⟩ := hk
        subst e
        have hk : (t, Ev.linked k) ∈ s.g.tr := by
          rcases own_linked_new h hk with hk | ⟨_, n, e2, _⟩
          · exact (own_sublist _).subset hk
          · cases e2
        have hr0 := hsh.1 rfl
        subst hr0
        rcases linkS_inv hc t hu' k hk with e | ⟨e, _⟩ | ⟨a, ha, h1, _⟩
        · rw [ht] at e; cases e
        · rw [ht] at e; cases e
        · rw [ht, List.mem_singleton] at ha
          subst ha; cases h1
      rcases hold hu hk hst hx (fun _ => ⟨fun n e => hb2 ⟨n, e⟩, fun n e => hb5 ⟨n, e⟩,
        fun st ar e => hig ⟨st, ar, e⟩⟩) with h1 | ⟨a, ha, hd⟩
      · exact Or.inl h1
      rw [ht] at ha
      rcases List.mem_cons.1 ha with e | ha
      · subst e
        have hkO : ∃ k, (t, Ev.linked k) ∈ own s.g.tr := by
          obtain ⟨k, hk⟩ := hk
          rcases own_linked_new h hk with hk | ⟨_, n, e2, _⟩
          · exact ⟨k, hk⟩
          · exact absurd ⟨n, e2⟩ hb2
        have hstT : ∃ st ar, (t, Ev.start st ar) ∈ s.g.tr := by
          obtain ⟨st, ar, hst⟩ := hst
          rcases start_new h ((own_sublist _).subset hst) with h1 | ⟨_, ⟨n, e2, _⟩ | ⟨st, ar, e2⟩⟩
          · exact ⟨st, ar, h1⟩
          · exact absurd ⟨n, e2⟩ hb5
          · exact absurd ⟨st, ar, e2⟩ hig
        obtain ⟨k, hkO⟩ := hkO
        obtain ⟨st, ar, hstT⟩ := hstT
        have hown : ∀ e, (t, e) ∈ s.g.tr → (t, e) ∈ own s.g.tr :=
          (own_thread hc).1.2 t k hkO
        have happl : ∀ {n}, a.thr = some n → a.unlinked = none → a ≠ .bt0 n → a.newRec = none →
            (s.g.nodes n).appl = true ∧ (s.g.nodes n).magic = true := by
          intro n hn h1 h2 h3
          have hcl : claims s.g t a n := Or.inr ⟨hu', hn⟩
          obtain ⟨m1, m2⟩ := self_inv hc hft hcl
          have hl := linked_inv hc hft hn h1 hu'
          have hne := claims_ne_main hc hft (Or.inr hn)
          have hb := (born_of_live hc hft hu').2
          exact ⟨((listI_inv hc hb).1 n hl hne t (m2 h3 h2)).2.1 st ar hstT, m1⟩
        unfold OwesFini at hd
        split at hd
        · fstep_cases h
          exact Or.inr ⟨_, List.mem_cons_self, trivial⟩
        · rename_i n
          obtain ⟨h1, h2⟩ := happl (n := n) rfl rfl (by simp) rfl
          have h3 := before_inv hc hft n rfl rfl hu' (hx0 hx)
          have h4 : (s.g.nodes n).block = false := (hA.2 _ (by rw [ht]; rfl)).2 n rfl
          have h5 : s.g.finiThreadDone = false := by
            cases e : s.g.finiThreadDone with
            | false => rfl
            | true =>
              have := (inExit_inv hr).1 e
              rw [hx0 hx] at this; cases this
          have hmay : mayFini s.g n = true := by simp [mayFini, h1, h2, h3, h4, h5]
          simp only [fstep, hmay, if_true, cont] at h
          cases h
          exact Or.inr ⟨_, List.mem_cons_self, trivial⟩
        · rename_i n
          obtain ⟨h1, _⟩ := happl (n := n) rfl rfl (by simp) rfl
          have hrec := (recI_inv hc hft).2 n hu' rfl
          have k1 := hown _ (hrec.linked rfl)
          have k2 := hown _ (hrec.inited (Or.inr h1))
          fstep_cases h
          refine Or.inr ⟨_, List.mem_cons_self, (s.g.nodes n).data, ?_, ?_, ?_⟩
          · exact List.mem_cons_of_mem _ k1
          · exact List.mem_cons_of_mem _ k2
          · exact List.mem_cons_self
        · rename_i n k'
          left
          refine ⟨k', hd.mono h, ?_⟩
          fstep_cases h
          · exact List.mem_cons_self
          · contradiction
        · exact hd.elim
      · exact Or.inr ⟨a, List.mem_append_right _ ha, hd.mono h⟩
    have hpx : nx = .unwind → f.isPx = true := by
      intro e; subst e
      cases f <;> fstep_cases h <;> rfl
    refine ⟨trivial, ?_, ?_, ?_, fun l e => hspecial e, ?_⟩
    · intro u hut _ hu hk hst hx
      rcases hold hu hk hst hx (fun e => absurd e hut) with h1 | ⟨a, ha, hd⟩
      · exact Or.inl h1
      · exact Or.inr ⟨a, ha, hd.mono h⟩
    · intro e hu hk hst hx
      subst e
      have hne : (∀ n, f ≠ .bt2 n) ∨ ∃ n, f = .bt2 n ∧ g'.tr = s.g.tr := by
        by_cases e : ∃ n, f = .bt2 n
        · obtain ⟨n, e⟩ := e
          subst e
          fstep_cases h
          exact Or.inr ⟨n, rfl, rfl⟩
        · exact Or.inl (fun n e2 => e ⟨n, e2⟩)
      rcases hne with hne | ⟨n, e, htr⟩
      · rcases hold hu hk hst hx (fun _ => ⟨hne, fun n e => by subst e; fstep_cases h,
          fun st ar e => by subst e; fstep_cases h⟩) with h1 | ⟨a, ha, hd⟩
        · exact Or.inl h1
        · rw [ht] at ha
          exact Or.inr ⟨a, ha, hd.mono h⟩
      · exfalso
        obtain ⟨st, ar, hst⟩ := hst
        rw [htr] at hst
        have hlife := life_start hr t
        rw [ht, toks_cons, e] at hlife
        have := occursBy_pos (p := fun e => e.isStart || e.isRefused) ((own_sublist _).subset hst) rfl
        simp only [tokStart] at hlife
        omega
    · intro e hu hk hst hx
      have hp := hpx e
      subst e
      have hno : ∀ {a : Frame}, a.isPx = false → f ≠ a := by
        intro a ha e; subst e; rw [hp] at ha; cases ha
      rcases hold hu hk hst hx (fun _ => ⟨fun n => hno rfl, fun n => hno rfl, fun _ _ => hno rfl⟩) with
        h1 | ⟨a, ha, hd⟩
      · exact Or.inl h1
      · right
        have htd := (hA.2 f (by rw [ht]; rfl)).1 hp
        rw [ht] at ha
        have ha : a ∈ rest := by
          rcases List.mem_cons.1 ha with e | ha
          · subst e
            cases a <;> first | (simp [Frame.isPx] at hp; done) | exact hd.elim
          · exact ha
        exact owes_unwound hr htd hsh.2.2 (fun x hx => by rw [ht]; exact List.mem_cons_of_mem _ hx)
          ⟨a, ha, hd.mono h⟩
    · intro f0 e hu ⟨k, hk⟩
      exfalso
      have hne : s.g.nextTid ≠ t := by
        intro e2
        have := fresh_inv hr t (by omega)
        rw [ht] at this; cases this
      have hk := (own_linked_new h hk).resolve_right (fun hh => hne hh.1)
      have h1 := occursBy_pos (p := fun e => e.isLinked || e.isRefused) ((own_sublist _).subset hk) rfl
      have := (life_linked' hr s.g.nextTid).2 (Nat.le_refl _)
      omega
  · intro s t i f rest pre hr hA ht _ hS h1 h2 hpre hu hk hst hx
    rcases hS t hu hk hst hx with h3 | ⟨a, ha, hd⟩
    · exact Or.inl h3
    · rw [ht] at ha
      exact Or.inr ⟨a, List.mem_append_right _ ha, hd⟩
  · intro s t hr hA _ hne hS hu hk hst hx
    rcases hS t hu hk hst hx with h3 | h3
    · exact Or.inl h3
    · exact Or.inr (owes_unwound hr hA.2 (shape_inv hr t) (fun _ h => h) h3)
  · intro s t c d rest hr hA ht _ hS
    exact ⟨trivial, fun h => absurd rfl h, fun u _ _ ⟨_, h⟩ => by cases h⟩
  · intro s t rest hr hA ht _ hS
    exact ⟨trivial, fun h => absurd rfl h, fun u _ _ ⟨_, h⟩ => by cases h⟩

end Libmonitor.Proc
