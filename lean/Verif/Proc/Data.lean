import Verif.Proc.Start
/-!
# Main's client data (main.c:284, 321; pthread.c:335-348): invariants
-/

namespace Libmonitor.Proc

/-- The record of a created thread in frames that write to it. -/
def Frame.threadRec : Frame → Option NodeId
  | .pc6 _ _ n .. | .pcStack _ _ n .. | .pc7 _ _ n .. | .pc8 _ _ n _ | .bt0 n | .bt1 n | .bt2 n | .bt3 n
  | .btInit n | .bt4 n | .bt5 n | .btApp n | .cl0 n | .fin0 n .cleanup | .finCb n .cleanup _
  | .ul0 n | .ul1 n => some n
  | _ => none

theorem alloc_ne_main {g : G} {ok : Bool} {a : Got} (hfree : .main ∉ g.free)
    (h : alloc g ok = some a) : a.n ≠ .main ∧ .main ∉ a.free := by
  unfold alloc at h
  split at h
  · rename_i n fs hf
    injection h with h; subst h
    rw [hf] at hfree
    simp only [List.mem_cons, not_or] at hfree
    exact ⟨fun e => hfree.1 e.symm, hfree.2⟩
  · split at h
    · injection h with h; subst h; simp
    · split at h
      · injection h with h; subst h; simp
      · cases h

/-- Main's record is never given to a created thread. -/
theorem rec_inv {A : S → Lbl → Prop} {s : S} (hs : ReachA A s) :
    .main ∉ s.g.free ∧ ∀ u h, h ∈ s.th u → h.threadRec ≠ some .main := by
  refine frames_inv (GI := fun g => .main ∉ g.free) (FI := fun _ _ h => h.threadRec ≠ some .main)
    (by simp) (by simp [Frame.threadRec]) ?_ (fun _ h => h) (fun _ _ _ h => h) ?_ ?_ (fun h => h)
    (fun h => h) (fun _ => ⟨by simp [Frame.threadRec], by simp [Frame.threadRec]⟩)
    (fun _ => by simp [Frame.threadRec]) hs
  · intro s t f rest ok v g' nx sp _ ht hG hF h
    have hfr : f.threadRec ≠ some .main := hF t f (by rw [ht]; exact List.mem_cons_self)
    clear hF ht
    refine ⟨?_, fun _ _ h => h, ?_, ?_⟩
    · cases f <;> fstep_cases h <;> try exact hG
      all_goals try (simp [listInit, G.emit, G.upd]; done)
      · simp only [G.emit, G.upd, resetList]; split
        · simp
        · exact hG
      · simp only [List.mem_cons, not_or]
        exact ⟨fun e => hfr (by rw [← e]; rfl), hG⟩
      · exact (alloc_ne_main hG (by assumption)).2
      · simp only [G.emit, resetList]; split
        · simp
        · exact hG
    · intro l hl h' hl'
      cases f <;> fstep_cases h <;> cases hl <;>
        (try simp only [List.mem_cons, List.not_mem_nil, or_false] at hl') <;>
        (try (rcases hl' with rfl | rfl)) <;> (try subst hl') <;>
        first
        | exact hfr
        | (simp [Frame.threadRec]; done)
        | skip
      · rename_i n src
        cases src <;> first | exact hfr | simp [Frame.threadRec]
      · rename_i hsrc; subst hsrc; exact hfr
      · have := (alloc_ne_main hG (by assumption)).1
        intro e; injection e with e; exact this e
    · intro f0 hsp
      cases f <;> fstep_cases h <;> cases hsp <;> first | exact hfr | simp [Frame.threadRec]
  · intro g t f _ hp
    cases f <;> first | (simp [Frame.threadRec]; done) | (simp [Frame.pushable] at hp; done)
  · intro g t f n ha hf
    cases f <;> simp_all [Frame.armed, Frame.threadRec]

theorem main_upd_ne {g : G} {n : NodeId} {k : Node → Node} (h : n ≠ .main) :
    (g.upd n k).nodes .main = g.nodes .main := by
  simp [G.upd, Ne.symm h]

theorem main_upd_keep {g : G} {n : NodeId} {k : Node → Node} (h : ∀ m, (k m).data = m.data) :
    ((g.upd n k).nodes .main).data = (g.nodes .main).data := by
  simp only [G.upd]; split
  · rename_i e; exact h _
  · rfl

/-- Main's data follows `lastData`. -/
theorem data_go {g g' : G} {t : Tid} {ok : Bool} {v : Nat} {f : Frame} {nx : Next}
    {sp : Option Frame} (hfree : .main ∉ g.free) (hrec : f.threadRec ≠ some .main)
    (h : fstep g t ok v f = some (g', nx, sp)) (hd : g.main.data = lastData g.tr) :
    g'.main.data = lastData g'.tr := by
  cases f <;> fstep_cases h <;> try exact hd
  all_goals simp only [G.main, G.emit, G.upd, listInit, lastData, if_true] at hd ⊢
  all_goals try (split <;> first
    | exact hd
    | (rename_i e; exact absurd (by rw [← e]; rfl) hrec)
    | (rename_i e; exact absurd e.symm (alloc_ne_main hfree (by assumption)).1))

/-- Frames that set main's data. -/
def Frame.setsData : Frame → Bool
  | .bpReset _ | .bpCb | .rfReset => true
  | _ => false

theorem data_keep {g g' : G} {t : Tid} {ok : Bool} {v : Nat} {f : Frame} {nx : Next}
    {sp : Option Frame} (hfree : .main ∉ g.free) (hrec : f.threadRec ≠ some .main)
    (hn : f.setsData = false) (h : fstep g t ok v f = some (g', nx, sp)) :
    g'.main.data = g.main.data := by
  cases f <;> first | (simp [Frame.setsData] at hn; done) | skip
  all_goals fstep_cases h <;> try rfl
  all_goals simp only [G.main, G.emit, G.upd, listInit]
  all_goals try (split <;> first
    | rfl
    | (rename_i e; exact absurd (by rw [← e]; rfl) hrec)
    | (rename_i e; exact absurd e.symm (alloc_ne_main hfree (by assumption)).1))

theorem ret_keep {g g' : G} {t : Tid} {ok : Bool} {v : Nat} {f : Frame} {nx : Next}
    {sp : Option Frame} (hn : f ≠ .bpCb) (h : fstep g t ok v f = some (g', nx, sp))
    {u : Tid} {w : Data} (hm : (u, Ev.initProcessRet w) ∈ own g'.tr) :
    (u, Ev.initProcessRet w) ∈ own g.tr := by
  cases f <;> fstep_cases h <;> first
    | exact hm
    | exact absurd rfl hn
    | (simpa [G.emit, G.upd, own, Ev.isForked] using hm)

/-- Calls of monitor_begin_process_fcn that have not finished. -/
def tokRet : Frame → Nat
  | .bp0 isFork _ => if isFork then 1 else 0
  | .bpReset _ | .bpFlags _ | .bpCall _ | .bpCb => 1
  | _ => 0

def usedRet (g : G) : Nat := occurs Ev.isInitProcessRet (own g.tr)

/-- Executions in which no thread forks (by either function) while it is in a call of
monitor_begin_process_fcn, and no signal handler runs in a child before its first instruction. -/
def QuietInit (s : S) : Lbl → Prop
  | .fork t => ∀ f ∈ s.th t, tokRet f = 0
  | .step t .interrupt => inChild s t = false ∧ (s.th t).head? ≠ some .rfReset
  | .step t .deliver => inChild s t = false ∧ (s.th t).head? ≠ some .rfReset
  | .step _ _ => True

instance (s : S) (l : Lbl) : Decidable (QuietInit s l) := by
  unfold QuietInit; split <;> infer_instance

theorem tokRet_go {g : G} {t : Tid} {ok : Bool} {v : Nat} {f : Frame} {g' : G} {nx : Next}
    {sp : Option Frame} (h0 : g.initCalled = false → usedRet g = 0)
    (h : fstep g t ok v f = some (g', nx, sp)) :
    usedRet g ≤ usedRet g' ∧ (∀ f0, sp = some f0 → tokRet f0 = 0) ∧
      ((g'.initCalled = g.initCalled ∧ nx.toks tokRet f + usedRet g' ≤ tokRet f + usedRet g) ∨
        (g.initCalled = false ∧ g'.initCalled = true ∧ nx.toks tokRet f + usedRet g' ≤ 1)) := by
  cases f <;> fstep_cases h <;>
    simp_all [listInit, G.emit, G.upd, Next.toks, toks, tokRet, usedRet, own, Ev.isForked,
      occurs_cons, Ev.isInitProcessRet]
  all_goals first | omega | skip
  all_goals
    cases hc : g.initCalled <;> simp_all

/-- The data of fini-process is what init-process returned. -/
def finiData (old : Hist) (_t : Tid) (e : Ev) : Prop :=
  ∀ how d, e = .finiProcess how d → ∀ u v, (u, Ev.initProcessRet v) ∈ own old → d = v

/-- No new fini-process data. -/
theorem finiData_go {g g' : G} {t : Tid} {ok : Bool} {v : Nat} {f : Frame} {nx : Next}
    {sp : Option Frame} (hA : Always finiData g.tr)
    (hD : ∀ u v, (u, Ev.initProcessRet v) ∈ own g.tr → g.main.data = v)
    (h : fstep g t ok v f = some (g', nx, sp)) : Always finiData g'.tr := by
  have k : ∀ {tr e}, own tr = own g.tr → (∀ how d, e = .finiProcess how d → d = g.main.data) →
      finiData tr t e := by
    intro tr e ho he how d hd u v hm
    rw [ho] at hm
    rw [he how d hd]; exact hD u v hm
  cases f <;> fstep_cases h <;> first
    | exact hA
    | exact ⟨k rfl (by simp), hA⟩
    | (refine ⟨?_, k rfl (by simp), hA⟩
       intro how d e; simp at e)
    | (simp only [G.emit, G.upd, resetList_tr]; exact ⟨k rfl (by simp), hA⟩)
    | (refine ⟨k rfl ?_, hA⟩
       intro how d e
       injection e with e1 e2
       exact e2.symm)

theorem not_ret_of_used {g : G} (h : usedRet g = 0) {u : Tid} {v : Data} :
    (u, Ev.initProcessRet v) ∉ own g.tr := by
  intro hm
  have : 0 < usedRet g := List.countP_pos_iff.2 ⟨_, hm, rfl⟩
  omega

theorem fst_rfReset {g g' : G} {t : Tid} {ok : Bool} {v : Nat} {f : Frame} {nx : Next}
    {sp : Option Frame} (h : fstep g t ok v f = some (g', nx, sp)) :
    (∀ l, nx = .go l → .rfReset ∉ l) ∧ sp ≠ some .rfReset := by
  cases f <;> fstep_cases h <;> simp

/-- A child that has not executed its first instruction. -/
def FreshChild (s : S) : Prop :=
  ∃ t f rest, s.th t = f :: rest ∧ ((∃ d, f = .bp0 true d) ∨ f = .rfReset) ∧
    toks tokRet rest = 0 ∧ .rfReset ∉ rest ∧ (∀ u, u ≠ t → s.th u = []) ∧ own s.g.tr = []

/-- The usual state: init-process is to return at most once, and main's data is what it
returned. -/
def DataOk (s : S) : Prop :=
  OneTok tokRet (·.initCalled) usedRet s ∧ (∀ u, .rfReset ∉ s.th u) ∧
    ∀ u v, (u, Ev.initProcessRet v) ∈ own s.g.tr → s.g.main.data = v

theorem dataInit_inv {s : S} (hs : ReachA QuietInit s) :
    Always finiData s.g.tr ∧ (DataOk s ∨ FreshChild s) := by
  induction hs with
  | init =>
    refine ⟨trivial, Or.inl ⟨⟨fun _ => ⟨rfl, fun t => ?_⟩, fun h => by cases h⟩, fun u hm => ?_,
      fun u v hm => by cases hm⟩⟩
    · show toks tokRet (if t = 0 then [Frame.start] else []) = 0
      split <;> rfl
    · have hm : Frame.rfReset ∈ (if u = 0 then [Frame.start] else []) := hm
      split at hm
      · rw [List.mem_singleton] at hm; cases hm
      · cases hm
  | @next s s' l hr hA hn ih =>
    obtain ⟨iA, ih⟩ := ih
    obtain ⟨hfree, hrec⟩ := rec_inv hr
    have hm := move_of_next hn
    have norf : (∃ t f rest, s.th t = f :: rest ∧ f ≠ .rfReset ∧ (∀ d, f ≠ .bp0 true d)) →
        ∀ t, (∀ u, u ≠ t → s.th u = []) → ∀ f rest, s.th t = f :: rest →
        ((∃ d, f = .bp0 true d) ∨ f = .rfReset) → False := by
      rintro ⟨t', f', rest', ht', h1, h2⟩ t hu f rest ht hf
      by_cases e : t' = t
      · subst e
        rw [ht] at ht'; cases ht'
        rcases hf with ⟨d, hf⟩ | hf
        · exact h2 d hf
        · exact h1 hf
      · rw [hu t' e] at ht'; cases ht'
    cases l with
    | fork t =>
      have hno : .rfReset ∉ (s.th t).tail := by
        rcases ih with ⟨_, h, _⟩ | ⟨w, f, rest, hw, hf, _, h, hu, _⟩
        · exact fun hm => h t (List.mem_of_mem_tail hm)
        · by_cases e : t = w
          · subst e; rw [hw]; exact h
          · rw [hu t e]; simp
      have hz : toks tokRet (s.th t).tail = 0 :=
        toks_zero (fun f hf => hA f (List.mem_of_mem_tail hf))
      cases hm with
      | @fork _ c d rest hd ht =>
        rw [ht] at hno hz
        refine ⟨⟨fun _ _ h => (by cases h), iA⟩, Or.inr ⟨t, .bp0 true d, .fkChild c :: rest,
          setTh_self (fun _ => []) t _, Or.inl ⟨d, rfl⟩, ?_, ?_, fun u hu => ?_, rfl⟩⟩
        · rw [toks_cons]; exact (Nat.zero_add _).trans hz
        · intro h
          rcases List.mem_cons.1 h with h | h
          · cases h
          · exact hno h
        · show setTh (fun _ => []) t _ u = []
          rw [setTh_ne _ _ hu]
      | @realFork _ rest hd ht =>
        rw [ht] at hno hz
        refine ⟨⟨fun _ _ h => (by cases h), iA⟩, Or.inr ⟨t, .rfReset, rest,
          setTh_self (fun _ => []) t _, Or.inr rfl, hz, hno, fun u hu => ?_, rfl⟩⟩
        show setTh (fun _ => []) t _ u = []
        rw [setTh_ne _ _ hu]
    | step t i =>
      rcases ih with ⟨hT, hR, hD⟩ | ⟨w, f0, rest0, hw, hf0, hz, hno, hu, ho⟩
      · have hT' : OneTok tokRet (·.initCalled) usedRet s' := by
          refine oneTok_step ?_ (fun _ => rfl) (fun _ => ⟨rfl, rfl⟩) tokRet_go (fresh_inv hr) hm
            (fun _ h => by cases h) hT
          intro f hf
          cases f <;> first | rfl | (simp [Frame.pushable] at hf; done) | skip
          rename_i b d
          cases b
          · rfl
          · cases hf
        cases hm with
        | @go _ f rest ok v r hd ht hf =>
          obtain ⟨g', nx, sp⟩ := r
          have hmain : (applyRes s t rest (g', nx, sp)).g.main = g'.main ∧
              (applyRes s t rest (g', nx, sp)).g.tr = g'.tr := by
            rw [applyRes_g]; split <;> exact ⟨rfl, rfl⟩
          have hR' : ∀ u, .rfReset ∉ (applyRes s t rest (g', nx, sp)).th u := by
            intro u hm
            obtain ⟨r1, r2⟩ := fst_rfReset hf
            rcases applyRes_mem ht hm with h | ⟨l, e, _, h⟩ | ⟨e, _⟩ | ⟨_, e | ⟨_, _, _, _, e⟩⟩
            · exact hR u h
            · exact r1 l e h
            · exact r2 e
            · cases e
            · cases e
          refine ⟨?_, Or.inl ⟨hT', hR', ?_⟩⟩
          · rw [hmain.2]; exact finiData_go iA hD hf
          · rw [hmain.1, hmain.2]
            have hnr : f ≠ .rfReset := fun e => hR t (by rw [ht, e]; exact List.mem_cons_self)
            have hused : tokRet f = 1 → usedRet s.g = 0 := by
              intro h1
              have hle : toks tokRet (s.th t) ≥ 1 := by rw [ht, toks_cons]; omega
              cases hc : s.g.initCalled with
              | false => exact (hT.1 hc).1
              | true =>
                obtain ⟨w, h2, h3⟩ := hT.2 hc
                by_cases e : t = w
                · subst e; omega
                · have := h2 t e; omega
            by_cases hb : f = .bpCb
            · subst hb
              have h0 := hused rfl
              fstep_cases hf
              intro u w hm
              simp only [G.emit, G.upd, own_cons _ (show (Ev.initProcessRet v).isForked = false from rfl),
                List.mem_cons] at hm
              rcases hm with hm | hm
              · injection hm with _ hm; injection hm with hm
                simp only [G.main, G.emit, G.upd, if_true]; exact hm.symm
              · exact absurd hm (not_ret_of_used h0)
            · by_cases hs : f.setsData = true
              · cases f <;> first | (simp [Frame.setsData] at hs; done) | skip
                · have h0 := hused rfl
                  intro u w hm
                  exact absurd (ret_keep hb hf hm) (not_ret_of_used h0)
                · exact absurd rfl hb
                · exact absurd rfl hnr
              · intro u w hm
                rw [data_keep hfree (hrec t f (by rw [ht]; exact List.mem_cons_self))
                  (by simpa using hs) hf]
                exact hD u w (ret_keep hb hf hm)
        | @call _ f rest a hd ht hf =>
          refine ⟨iA, Or.inl ⟨hT', fun u hm => ?_, hD⟩⟩
          rcases mem_setTh hm with ⟨e, hm⟩ | ⟨_, hm⟩
          · rcases List.mem_append.1 hm with hm | hm
            · exact absurd (api_pushable hm) (by simp [Frame.pushable])
            · exact hR t (by rw [ht]; exact hm)
          · exact hR u hm
        | @unwind _ f rest hd ht hf =>
          refine ⟨iA, Or.inl ⟨hT', fun u hm => ?_, hD⟩⟩
          rcases mem_setTh hm with ⟨e, hm⟩ | ⟨_, hm⟩
          · rcases unwound_cases (f :: rest) with h | ⟨_, n, _, _, h⟩ <;> rw [h] at hm <;>
              simp at hm
          · exact hR u hm
        | @deliver _ f rest hd ht hon hh =>
          refine ⟨iA, Or.inl ⟨hT', fun u hm => ?_, hD⟩⟩
          rcases mem_setTh hm with ⟨e, hm⟩ | ⟨_, hm⟩
          · rcases List.mem_cons.1 hm with hm | hm
            · cases hm
            · exact hR t (by rw [ht]; exact hm)
          · exact hR u hm
        | @interrupt _ f rest hd ht =>
          refine ⟨iA, Or.inl ⟨hT', fun u hm => ?_, hD⟩⟩
          rcases mem_setTh hm with ⟨e, hm⟩ | ⟨_, hm⟩
          · rcases List.mem_cons.1 hm with hm | hm
            · cases hm
            · exact hR t (by rw [ht]; exact hm)
          · exact hR u hm
      · cases hm with
        | @call _ f rest a hd ht hf =>
          exact (norf ⟨t, f, rest, ht, (by intro e; subst e; cases hf),
            (by intro d e; subst e; cases hf)⟩ w hu f0 rest0 hw hf0).elim
        | @unwind _ f rest hd ht hf =>
          exact (norf ⟨t, f, rest, ht, (by intro e; subst e; cases hf),
            (by intro d e; subst e; cases hf)⟩ w hu f0 rest0 hw hf0).elim
        | @deliver _ f rest hd ht hon hh =>
          obtain ⟨a1, a2⟩ := hA
          exact (norf ⟨t, f, rest, ht, (by intro e; subst e; rw [ht] at a2; exact a2 rfl),
            (by intro d e; subst e; simp [inChild, ht, Frame.isChildBp0] at a1)⟩
            w hu f0 rest0 hw hf0).elim
        | @interrupt _ f rest hd ht =>
          obtain ⟨a1, a2⟩ := hA
          exact (norf ⟨t, f, rest, ht, (by intro e; subst e; rw [ht] at a2; exact a2 rfl),
            (by intro d e; subst e; simp [inChild, ht, Frame.isChildBp0] at a1)⟩
            w hu f0 rest0 hw hf0).elim
        | @go _ f rest ok v r hd ht hf =>
          have e : t = w := by
            by_cases e : t = w
            · exact e
            · rw [hu t e] at ht; cases ht
          subst e
          rw [hw] at ht; cases ht
          have hR' : ∀ l, .rfReset ∉ l → ∀ u, .rfReset ∉ setTh s.th t (l ++ rest0) u := by
            intro l hl u hm
            rcases mem_setTh hm with ⟨_, hm⟩ | ⟨e, hm⟩
            · rcases List.mem_append.1 hm with hm | hm
              · exact hl hm
              · exact hno hm
            · rw [hu u e] at hm; cases hm
          have hT' : ∀ (g' : G) l, toks tokRet l + usedRet g' ≤ 1 →
              (g'.initCalled = false → toks tokRet l = 0) → (usedRet g' = 0) →
              OneTok tokRet (·.initCalled) usedRet { g := g', th := setTh s.th t (l ++ rest0) } := by
            intro g' l h1 h2 h3
            refine ⟨fun h => ⟨h3, fun u => ?_⟩, fun h => ⟨t, fun u hne => ?_, ?_⟩⟩
            · show toks tokRet (setTh s.th t (l ++ rest0) u) = 0
              by_cases e : u = t
              · subst e; rw [setTh_self, toks_append, h2 h, hz]
              · rw [setTh_ne _ _ e, hu u e]; rfl
            · show toks tokRet (setTh s.th t (l ++ rest0) u) = 0
              rw [setTh_ne _ _ hne, hu u hne]; rfl
            · show toks tokRet (setTh s.th t (l ++ rest0) t) + usedRet g' ≤ 1
              rw [setTh_self, toks_append, hz]; omega
          rcases hf0 with ⟨d, rfl⟩ | rfl
          · have h0 : usedRet s.g = 0 := by simp [usedRet, ho, occurs]
            simp only [fstep, cont, if_true] at hf
            cases hf
            refine ⟨iA, Or.inl ⟨hT' _ [.bpReset d] ?_ (fun h => by cases h) h0, hR' _ (by simp), ?_⟩⟩
            · show 1 + usedRet s.g ≤ 1
              omega
            · intro u v hm
              have hm : (u, Ev.initProcessRet v) ∈ own s.g.tr := hm
              rw [ho] at hm; cases hm
          · fstep_cases hf
            have ho' : own ((resetList s.g t).emit t
                (.realReset (resetList s.g t).main.data)).tr =
                [(t, Ev.realReset (resetList s.g t).main.data)] := by
              simp only [G.emit]
              rw [own_cons _ rfl, resetList_tr, ho]
            have h0 : usedRet ((resetList s.g t).emit t
                (.realReset (resetList s.g t).main.data)) = 0 := by
              simp only [usedRet, ho']; rfl
            refine ⟨?_, Or.inl ⟨hT' _ [] ?_ (fun _ => rfl) h0, hR' _ (by simp), ?_⟩⟩
            · refine ⟨fun _ _ h => (by cases h), ?_⟩
              rw [resetList_tr]; exact iA
            · show 0 + _ ≤ 1
              omega
            · intro u v hm
              exact absurd hm (not_ret_of_used h0)

def finiLast (old : Hist) (_t : Tid) (e : Ev) : Prop :=
  ∀ how d, e = .finiProcess how d → d = lastData old

theorem lastData_inv {A : S → Lbl → Prop} {s : S} (hs : ReachA A s) :
    s.g.main.data = lastData s.g.tr ∧ Always finiLast s.g.tr := by
  refine glob_inv (GI := fun g => g.main.data = lastData g.tr ∧ Always finiLast g.tr)
    ⟨rfl, trivial⟩ ?_ (fun _ h => h) ?_ hs
  · intro s t f rest ok v g' nx sp hr _ ht hG h
    obtain ⟨hfree, hrec⟩ := rec_inv hr
    refine ⟨data_go hfree (hrec t f (by rw [ht]; exact List.mem_cons_self)) h hG.1, ?_⟩
    obtain ⟨hD, hA⟩ := hG
    have k : ∀ {tr e}, (∀ how d, e = .finiProcess how d → d = lastData tr) → finiLast tr t e :=
      fun h => h
    cases f <;> fstep_cases h <;> first
      | exact hA
      | exact ⟨k (by simp [hD]), hA⟩
      | exact ⟨k (by simp), k (by simp), hA⟩
      | (simp only [G.emit, G.upd, resetList_tr]; exact ⟨k (by simp), hA⟩)
  · intro s t real _ h
    exact ⟨h.1, fun _ _ h => (by cases h), h.2⟩

end Libmonitor.Proc
