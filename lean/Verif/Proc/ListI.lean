import Verif.Proc.Broad
/-!
# The list of threads: who is on it, in which state
-/

namespace Libmonitor.Proc

theorem finiRet_inv {A : S → Lbl → Prop} {s : S} (hs : ReachA A s) {u : Tid} {k : Int}
    (hm : (u, .finiThreadRet k) ∈ s.g.tr) : ∃ k d src, (u, .finiThread k d src) ∈ s.g.tr := by
  refine (frames_inv (A := A)
    (GI := fun g => ∀ u k, (u, Ev.finiThreadRet k) ∈ g.tr →
      ∃ k d src, (u, Ev.finiThread k d src) ∈ g.tr)
    (FI := fun g u f => f.finiTid.isSome = true → ∃ k d src, (u, Ev.finiThread k d src) ∈ g.tr)
    (fun _ _ h => by cases h) (fun h => by cases h)
    ?_ (fun _ h => h) (fun _ _ _ h => h) ?_ ?_ ?_ ?_
    (fun _ => ⟨fun h => (by cases h), fun h => (by cases h)⟩)
    (fun _ h => by cases h) hs).1 u k hm
  · intro s t f rest ok v g' nx sp _ ht hG hF h
    have hmem := mem_of_fstep h
    have hf := hF t f (by rw [ht]; exact List.mem_cons_self)
    refine ⟨?_, fun u h' hi hs => ?_, ?_, ?_⟩
    · intro u k hm
      have : (u, Ev.finiThreadRet k) ∈ s.g.tr ∨ (u = t ∧ f.finiTid.isSome = true) := by
        clear hF ht hf hG hmem
        cases f <;> fstep_cases h <;> first
          | exact Or.inl hm
          | (simp [listInit, G.emit, G.upd] at hm; exact Or.inl hm)
          | (rcases List.mem_cons.1 hm with hm | hm
             · injection hm with h1 _; exact Or.inr ⟨h1, rfl⟩
             · exact Or.inl hm)
      rcases this with h1 | ⟨h1, h2⟩
      · obtain ⟨k, d, src, h1⟩ := hG u k h1
        exact ⟨k, d, src, hmem _ h1⟩
      · obtain ⟨k, d, src, h3⟩ := hf h2
        subst h1
        exact ⟨k, d, src, hmem _ h3⟩
    · obtain ⟨k, d, src, h3⟩ := hi hs
      exact ⟨k, d, src, hmem _ h3⟩
    · intro l e h' hm hsh
      clear hF ht hf hG
      cases f <;> fstep_cases h <;> cases e <;>
        simp only [List.mem_cons, List.not_mem_nil, or_false] at hm <;>
        (try (rcases hm with hm | hm)) <;> (try subst hm) <;> first
        | (cases hsh; done)
        | (cases hm; done)
        | exact ⟨_, _, _, List.mem_cons_self⟩
        | skip
      all_goals (split at hm <;> simp at hm; subst hm; cases hsh)
    · intro h' e hsh
      clear hF ht hf hG
      cases f <;> fstep_cases h <;> cases e <;> cases hsh
  · intro g t h _ hp hsh
    cases h <;> first | (cases hsh; done) | (simp [Frame.pushable] at hp; done)
  · intro g t f n _ _ hsh
    cases hsh
  · intro g t real hG u k hm
    rcases List.mem_cons.1 hm with hm | hm
    · injection hm with _ h1; cases h1
    · obtain ⟨k, d, src, h1⟩ := hG u k hm
      exact ⟨k, d, src, List.mem_cons_of_mem _ h1⟩
  · intro g t real u h hF hs
    obtain ⟨k, d, src, h1⟩ := hF hs
    exact ⟨k, d, src, List.mem_cons_of_mem _ h1⟩

theorem start_new {g g' : G} {t : Tid} {ok : Bool} {v : Nat} {f : Frame} {nx : Next}
    {sp : Option Frame} (h : fstep g t ok v f = some (g', nx, sp)) {u : Tid} {st ar : Nat}
    (hm : (u, .start st ar) ∈ g'.tr) : (u, .start st ar) ∈ g.tr ∨
      (u = t ∧ ((∃ n, f = .bt5 n ∧ g'.nodes = g.nodes) ∨ ∃ st ar, f = .ign st ar)) := by
  cases f <;> fstep_cases h <;> first
    | exact Or.inl hm
    | (simp [listInit, G.emit, G.upd] at hm; exact Or.inl hm)
    | (rcases List.mem_cons.1 hm with hm | hm
       · injection hm with h1 _; exact Or.inr ⟨h1, Or.inl ⟨_, rfl, rfl⟩⟩
       · exact Or.inl hm)
    | (rcases List.mem_cons.1 hm with hm | hm
       · injection hm with h1 _; exact Or.inr ⟨h1, Or.inr ⟨_, _, rfl⟩⟩
       · exact Or.inl hm)

/-- A record on the list keeps the thread named in it. -/
theorem list_self_keep {s : S} (hr : ReachA Clean s) {t : Tid} {f : Frame} {rest : List Frame}
    {ok : Bool} {v : Nat} {g' : G} {nx : Next} {sp : Option Frame} (ht : s.th t = f :: rest)
    (h : fstep s.g t ok v f = some (g', nx, sp)) (hb : born s.g.tr = false) {n : NodeId}
    (hn : n ≠ .main) (hl : n ∈ s.g.list) (hul : f = .ul1 n → s.g.inExit = true) :
    (g'.nodes n).self = (s.g.nodes n).self ∧ (g'.nodes n).magic = (s.g.nodes n).magic := by
  have hft : f ∈ s.th t := by rw [ht]; exact List.mem_cons_self
  obtain ⟨hc, hav, hex⟩ := list_excl hr hn hb hl
  by_cases e : f = .ul1 n
  · have hx := hul e
    subst e
    fstep_cases h <;> first
      | (rename_i h0 _; exact absurd hx h0)
      | (simp [G.upd]; done)
  · refine self_keep h hn ?_ e ?_
    · intro e; subst e
      exact (hex t _ hft).2 rfl
    · intro a c my st ar d _ ha e
      have := alloc_pos (arr_inv hr) ha
      rw [e] at this; omega

/-- The owner of a record on the list, from a frame that owns it. -/
theorem claim_self {s : S} (hr : ReachA Clean s) {u w : Tid} {f : Frame} {n : NodeId}
    (hf : f ∈ s.th u) (hc : claims s.g u f n) (h1 : f.newRec = none) (h2 : f ≠ .bt0 n)
    (hw : (s.g.nodes n).self = some w) : w = u := by
  have := (self_inv hr hf hc).2 h1 h2
  rw [hw] at this
  injection this

/-- What a step does to a record that is on the list: the thread's own step, or none. -/
theorem list_core {s : S} (hr : ReachA Clean s) {t : Tid} {f : Frame} {rest : List Frame}
    {ok : Bool} {v : Nat} {g' : G} {nx : Next} {sp : Option Frame} (ht : s.th t = f :: rest)
    (h : fstep s.g t ok v f = some (g', nx, sp)) (hb : born s.g.tr = false) {n : NodeId}
    (hn : n ≠ .main) (hl : n ∈ s.g.list) {u : Tid} (hu : (s.g.nodes n).self = some u)
    (hul : f = .ul1 n → s.g.inExit = true) :
    ((g'.nodes n).appl = (s.g.nodes n).appl ∨ (g'.nodes n).appl = true) ∧
    ((g'.nodes n).finiS = (s.g.nodes n).finiS ∨
      ∃ k d src, (u, Ev.finiThread k d src) ∈ g'.tr) := by
  have hft : f ∈ s.th t := by rw [ht]; exact List.mem_cons_self
  obtain ⟨hc, hav, hex⟩ := list_excl hr hn hb hl
  have hmem := mem_of_fstep h
  by_cases e : f.shapes n
  · have hcl := shapes_claims hr hft e
    rcases e with e | e | e | e | e | ⟨c, my, st, ar, d, e⟩
    · subst e; exact absurd rfl (hex t _ hft).2
    · subst e; exact absurd rfl (hex t _ hft).2
    · subst e
      fstep_cases h
      simp [G.emit, G.upd]
    · subst e
      fstep_cases h
      simp [G.upd]
    · have hx := hul e
      subst e
      have hut := claim_self hr hft hcl rfl (by simp) hu
      subst hut
      have htm := thr_ne_main hr hft (n := n) rfl rfl
      obtain ⟨k, hd⟩ := ((recI_inv hr hft).2 n htm rfl).done rfl
      obtain ⟨k, d, src, hd⟩ := finiRet_inv hr hd
      fstep_cases h
      · exact ⟨Or.inl (by simp [G.upd]), Or.inr ⟨k, d, src, hd⟩⟩
      · exact absurd hx (by assumption)
    · subst e; exact absurd rfl (hex t _ hft).1
  · obtain ⟨k1, k2, _⟩ := core_keep h hn e (fun a c my st ar d _ ha e => by
      have := alloc_pos (arr_inv hr) ha
      rw [e] at this; omega)
    refine ⟨Or.inl (core_eq k1).2.2.2.2, ?_⟩
    rcases k2 with k2 | ⟨src, e2⟩
    · exact Or.inl k2
    · subst e2
      right
      have hut : u = t := by
        by_cases es : src = .cleanup
        · subst es
          have htm := thr_ne_main hr hft (n := n) rfl rfl
          exact claim_self hr hft (Or.inr ⟨htm, rfl⟩) rfl (by simp) hu
        · have hm := held_inv hr hft (n := n) (by simp [Frame.holds, es])
          obtain ⟨f', hf', h1, h2, h3⟩ := mine_claims hr hm hn (by rw [ht]; simp)
            (by rw [ht]; simp)
          refine claim_self hr hf' h3 ?_ h2 hu
          cases f' <;> first | rfl | (cases h1; done)
      subst hut
      fstep_cases h
      exact ⟨_, _, _, List.mem_cons_self⟩

/-- The list of threads. -/
def ListI (g : G) : Prop :=
  (∀ n, n ∈ g.list → n ≠ .main → ∀ u, (g.nodes n).self = some u →
    (∃ k, (u, Ev.linked k) ∈ g.tr) ∧
    (∀ st ar, (u, Ev.start st ar) ∈ g.tr → (g.nodes n).appl = true) ∧
    ((g.nodes n).finiS = true → ∃ k d src, (u, Ev.finiThread k d src) ∈ g.tr)) ∧
  (∀ u k, u ≠ mainOf g.tr → (u, Ev.linked k) ∈ own g.tr →
    (∀ k d src, (u, Ev.finiThread k d src) ∉ g.tr) →
    ∃ n, n ∈ g.list ∧ n ≠ .main ∧ (g.nodes n).self = some u)

theorem own_linked_new {g g' : G} {t : Tid} {ok : Bool} {v : Nat} {f : Frame} {nx : Next}
    {sp : Option Frame} (h : fstep g t ok v f = some (g', nx, sp)) {u : Tid} {k : Int}
    (hm : (u, .linked k) ∈ own g'.tr) :
    (u, .linked k) ∈ own g.tr ∨ (u = t ∧ ∃ n, f = .bt2 n ∧ n ∈ g'.list ∧
      (g'.nodes n).self = (g.nodes n).self) := by
  cases f <;> fstep_cases h <;> first
    | exact Or.inl hm
    | (simp [listInit, G.emit, G.upd, own, Ev.isForked] at hm; exact Or.inl hm)
    | skip
  simp only [G.emit, own, Ev.isForked, Bool.false_eq_true, if_false] at hm
  rcases List.mem_cons.1 hm with hm | hm
  · injection hm with h1 _
    exact Or.inr ⟨h1, _, rfl, by simp [G.emit], by simp [G.emit, G.upd]⟩
  · exact Or.inl hm

theorem listI_inv {s : S} (hs : ReachA Clean s) (hb : born s.g.tr = false) : ListI s.g := by
  refine glob_inv (A := Clean) (GI := fun g => born g.tr = false → ListI g)
    ?_ ?_ (fun _ h => h) ?_ hs hb
  · intro _
    exact ⟨fun n h => (by cases h), fun u k _ h => (by cases h)⟩
  · intro s t f rest ok v g' nx sp hr hA ht hG h hb'
    have hft : f ∈ s.th t := by rw [ht]; exact List.mem_cons_self
    have hmem := mem_of_fstep h
    have hmo := mainOf_fstep h
    cases hb : born s.g.tr with
    | true =>
      obtain ⟨_, h2, _⟩ := birth_step hr ht hb
      refine ⟨fun n hl hn => ?_, fun u k _ hk => ?_⟩
      · exact absurd (reset_list h2 hb (fun hu => ((base_inv hr).1.2 hu).1) h hb' n hl) hn
      · rcases own_linked_new h hk with hk | ⟨_, n, e, _⟩
        · rw [own_born hb] at hk; cases hk
        · subst e; cases h2
    | false =>
      have hnr := not_resetting hr hft hb
      obtain ⟨i1, i2⟩ := hG hb
      refine ⟨fun n hl hn u hu => ?_, fun u k hu hk hfin => ?_⟩
      · rcases list_new h hn hl with ⟨hl0, hul⟩ | e
        · have hul : f = .ul1 n → s.g.inExit = true := fun e => by
            rcases hul e with h1 | h1
            · exact h1
            · have := (list_excl hr hn hb hl0).1; omega
          have hsk := (list_self_keep hr ht h hb hn hl0 hul).1
          rw [hsk] at hu
          obtain ⟨⟨k, j1⟩, j2, j3⟩ := i1 n hl0 hn u hu
          obtain ⟨c1, c2⟩ := list_core hr ht h hb hn hl0 hu hul
          obtain ⟨_, u', lu, ls, lt⟩ := list_self hr hb hl0 hn
          rw [hu] at ls
          injection ls with ls; subst ls
          refine ⟨⟨k, hmem _ j1⟩, fun st ar hst => ?_, fun hfs => ?_⟩
          · rcases start_new h hst with hst | ⟨e, ⟨m, e2, e3⟩ | ⟨st, ar, e2⟩⟩
            · rcases c1 with c1 | c1
              · rw [c1]; exact j2 st ar hst
              · exact c1
            · subst e; subst e2
              have h1 := ((tsd_inv hr).2 u _ hft).2 m rfl (by simp) lu
              rw [lt] at h1
              injection h1 with h1; subst h1
              rw [e3]
              exact ((recI_inv hr hft).2 n lu rfl).appl rfl
            · subst e; subst e2
              have hsh := shape_inv hr u
              rw [ht] at hsh
              have hrest := hsh.1 rfl
              obtain ⟨f', hf', h1, h2, h3⟩ := mine_claims hr (Or.inr ⟨hn, lu, lt⟩) hn
                (by rw [ht]; simp) (by rw [ht]; simp)
              rw [ht, hrest, List.mem_singleton] at hf'
              subst hf'; cases h1
          · rcases c2 with c2 | ⟨k, d, src, c2⟩
            · rw [c2] at hfs
              obtain ⟨k, d, src, j3⟩ := j3 hfs
              exact ⟨k, d, src, hmem _ j3⟩
            · exact ⟨k, d, src, c2⟩
        · subst e
          have htm := thr_ne_main hr hft (n := n) rfl rfl
          have hrec := (recI_inv hr hft).2 n htm rfl
          have hself := (self_inv hr hft (Or.inr ⟨htm, rfl⟩)).2 rfl (by simp)
          have hlife := life_start hr t
          rw [ht, toks_cons] at hlife
          have hnl : n ∉ s.g.list := fun hl0 => (list_excl hr hn hb hl0).2.2 t _ hft |>.2 rfl
          have key : (g'.nodes n).self = (s.g.nodes n).self ∧
              (g'.nodes n).finiS = (s.g.nodes n).finiS ∧ ∃ k, (t, Ev.linked k) ∈ g'.tr := by
            fstep_cases h
            · exact absurd hl hnl
            · exact ⟨by simp [G.emit, G.upd], by simp [G.emit, G.upd], _, List.mem_cons_self⟩
          obtain ⟨k1, k2, k3⟩ := key
          rw [k1, hself] at hu
          injection hu with hu; subst hu
          refine ⟨k3, fun st ar hst => ?_, fun hfs => ?_⟩
          · rcases start_new h hst with hst | ⟨_, ⟨m, e2, _⟩ | ⟨st, ar, e2⟩⟩
            · have := occursBy_pos (p := fun e => e.isStart || e.isRefused) hst rfl
              simp only [tokStart] at hlife
              omega
            · cases e2
            · cases e2
          · rw [k2] at hfs
            obtain ⟨k, d, src, h1⟩ := hrec.finiS hfs
            exact ⟨k, d, src, hmem _ h1⟩
      · rw [hmo] at hu
        rcases own_linked_new h hk with hk | ⟨e, n, e2, e3, e4⟩
        · obtain ⟨n, hl, hn, hself⟩ := i2 u k hu hk (fun k d src hc => hfin k d src (hmem _ hc))
          have hul : f = .ul1 n → False := fun e => by
            subst e
            have htm := thr_ne_main hr hft (n := n) rfl rfl
            have hut := claim_self hr hft (Or.inr ⟨htm, rfl⟩) rfl (by simp) hself
            subst hut
            obtain ⟨k, hd⟩ := ((recI_inv hr hft).2 n htm rfl).done rfl
            obtain ⟨k, d, src, hd⟩ := finiRet_inv hr hd
            exact hfin _ _ _ (hmem _ hd)
          have hus : s.g.hasUsed = true := by
            cases hx : s.g.hasUsed with
            | true => rfl
            | false => exact absurd (((base_inv hr).1.2 hx).1 n hl) hn
          refine ⟨n, list_keep hnr hus h (fun e => hul e) hl, hn, ?_⟩
          rw [(list_self_keep hr ht h hb hn hl (fun e => (hul e).elim)).1]
          exact hself
        · subst e; subst e2
          have hself := (self_inv hr hft (Or.inr ⟨hu, rfl⟩)).2 rfl (by simp)
          exact ⟨n, e3, claims_ne_main hr hft (Or.inr rfl), e4.trans hself⟩
  · intro s t real _ _ hb
    cases hb

end Libmonitor.Proc
