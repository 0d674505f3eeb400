import Verif.Proc.Ended
import Verif.Proc.ChildExit
import Verif.Proc.Finished
import Verif.Proc.SpecPt
/-!
# Whose records are on the list, when threads are named by their pthread_t
-/

namespace Libmonitor.Proc

def CleanAll (s : S) (l : Lbl) : Prop := Clean s l ∧ EndsOnce s l ∧ EndsRan s l ∧ EndsFree s l

/-- The threads whose records are on the list are alive, until the exit cleanup. -/
def Listed (g : G) (u : Tid) (l : List Frame) : Prop :=
  born g.tr = false → ∀ n, n ∈ g.list → n ≠ .main → (g.nodes n).self = some u →
    (∃ f ∈ l, f.thr = some n) ∨ g.inExit = true

theorem listed_inv {s : S} (hs : ReachA CleanAll s) (u : Tid) : Listed s.g u (s.th u) := by
  refine (stack_invA (A := CleanAll) (GI := fun _ => True) (SI := Listed) trivial ?_ ?_ ?_
    (fun _ h => h) (fun _ _ _ h => h) ?_ ?_ ?_ ?_ hs).2 u
  · intro _ n h; cases h
  · intro _ _ _ n h; cases h
  · intro s t f rest ok v g' nx sp hrT hA ht _ hS h
    have hr : ReachA Clean s := reach_mono (fun _ _ h => h.1) hrT
    have hft : f ∈ s.th t := by rw [ht]; exact List.mem_cons_self
    -- records that were on the list
    have old : ∀ n, born g'.tr = false → n ∈ g'.list → n ≠ .main → f ≠ .bt2 n →
        born s.g.tr = false ∧ n ∈ s.g.list ∧ (f = .ul1 n → s.g.inExit = true) := by
      intro n hb' hl hn hf2
      cases hb : born s.g.tr with
      | true =>
        obtain ⟨_, h2, _⟩ := birth_step hr ht hb
        exact absurd (reset_list h2 hb (fun hu => ((base_inv hr).1.2 hu).1) h hb' n hl) hn
      | false =>
        rcases list_new h hn hl with ⟨hl0, hul⟩ | e
        · refine ⟨rfl, hl0, fun e => ?_⟩
          rcases hul e with hx | hx
          · exact hx
          · have := (list_excl hr hn hb hl0).1; omega
        · exact absurd e hf2
    -- the stack of another thread
    have others : ∀ u, u ≠ t → Listed g' u (s.th u) := by
      intro u hut hb' n hl hn hself
      have hne : f ≠ .bt2 n := by
        intro e
        subst e
        have htm := thr_ne_main hr hft (n := n) rfl rfl
        have o2 := (self_inv hr hft (Or.inr ⟨htm, rfl⟩)).2 rfl (by simp)
        have : (g'.nodes n).self = (s.g.nodes n).self := by
          fstep_cases h <;> simp [G.emit, G.upd]
        rw [this, o2] at hself
        injection hself with hself
        exact hut hself.symm
      obtain ⟨hb, hl0, hul⟩ := old n hb' hl hn hne
      obtain ⟨hc, hav, hex⟩ := list_excl hr hn hb hl0
      have hk := (list_self_keep hr ht h hb hn hl0 hul).1
      rw [hk] at hself
      rcases hS u hb n hl0 hn hself with h1 | h1
      · exact Or.inl h1
      · exact Or.inr (inExit_keep h h1)
    -- the thread itself, while its outermost call goes on
    have self : ∀ n, born g'.tr = false → n ∈ g'.list → n ≠ .main → (g'.nodes n).self = some t →
        f.thr ≠ some n → (∃ f' ∈ rest, f'.thr = some n) ∨ g'.inExit = true := by
      intro n hb' hl hn hself hthr
      obtain ⟨hb, hl0, hul⟩ := old n hb' hl hn (fun e => hthr (by rw [e]; rfl))
      obtain ⟨hc, hav, hex⟩ := list_excl hr hn hb hl0
      rw [(list_self_keep hr ht h hb hn hl0 hul).1] at hself
      rcases hS t hb n hl0 hn hself with ⟨f', h1, h2⟩ | h1
      · rw [ht] at h1
        rcases List.mem_cons.1 h1 with e | h1
        · rw [e] at h2; exact absurd h2 hthr
        · exact Or.inl ⟨f', h1, h2⟩
      · exact Or.inr (inExit_keep h h1)
    refine ⟨trivial, fun u hut _ => others u hut, ?_, ?_, ?_, ?_⟩
    · intro e hb' n hl hn hself
      by_cases hthr : f.thr = some n
      · exact Or.inl ⟨f, List.mem_cons_self, hthr⟩
      · rcases self n hb' hl hn hself hthr with ⟨f', h1, h2⟩ | h1
        · exact Or.inl ⟨f', List.mem_cons_of_mem _ h1, h2⟩
        · exact Or.inr h1
    · intro e hb' n hl hn hself
      have hpx : f.isPx = true ∧ f.thr = none := by
        subst e; clear others self old
        cases f <;> fstep_cases h <;> exact ⟨rfl, rfl⟩
      have htd := hA.2.1 f (by rw [ht]; rfl) hpx.1
      rcases self n hb' hl hn hself (by rw [hpx.2]; simp) with ⟨f', h1, h2⟩ | h1
      · left
        refine thr_unwound hr (Or.inr ⟨f, ht⟩) h1 h2 ?_ htd
        obtain ⟨hb, hl0, _⟩ := old n hb' hl hn (fun e => by rw [e] at hpx; cases hpx.2)
        exact ((list_excl hr hn hb hl0).2.2 t f' (by rw [ht]; exact List.mem_cons_of_mem _ h1)).2
      · exact Or.inr h1
    · intro l e hb' n hl hn hself
      by_cases hthr : f.thr = some n
      · subst e
        by_cases hf2 : f = .bt2 n
        · subst hf2
          have hx : s.g.inExit = true → False := fun hx => by
            have hul := list_excl hr hn (not_born hr ht rfl) (n := n)
            fstep_cases h <;> first
              | (exact (hul hl).2.2 t _ hft |>.2 rfl)
              | (rename_i h0 _ _; exact h0 hx)
              | (rename_i h0 _; exact h0 hx)
          fstep_cases h
          · exact absurd ‹s.g.inExit = true› hx
          · exact Or.inl ⟨_, List.mem_cons_self, rfl⟩
        · obtain ⟨hb, hl0, hul⟩ := old n hb' hl hn hf2
          obtain ⟨hc, hav, hex⟩ := list_excl hr hn hb hl0
          obtain ⟨hmag, w, hw, hws, _⟩ := list_self hr hb hl0 hn
          have hk := (list_self_keep hr ht h hb hn hl0 hul).1
          rw [hk, hws] at hself
          injection hself with hself
          subst hself
          have hbef := before_inv hr hft n hthr
          have hun := (hex _ f hft).2
          clear old others self hex
          cases f <;> first | (cases hthr; done) | (exact absurd hthr hun) | skip
          all_goals fstep_cases h <;> first
            | exact Or.inl ⟨_, List.mem_cons_self, hthr⟩
            | skip
          · rename_i hsrc
            simp only [Frame.thr, hsrc, if_true, Option.some.injEq] at hthr
            exact Or.inl ⟨_, List.mem_cons_self, by rw [hthr]; rfl⟩
          · rename_i hsrc
            simp [Frame.thr, hsrc] at hthr
          · rename_i m hmf
            injection hthr with hthr
            subst hthr
            have happ := hA.2.2.1 (.cl0 m) (by rw [ht]; rfl) m rfl
            have hB := hA.2.2.2 (.cl0 m) (by rw [ht]; rfl) m rfl
            have hm : (s.g.nodes m).finiS = true ∨ s.g.finiThreadDone = true := by
              simp only [mayFini, hmag, happ, hB, Bool.and_true, Bool.true_and, Bool.not_false,
                Bool.and_eq_true, Bool.not_eq_true', not_and, Bool.not_eq_false] at hmf
              cases hfs : (s.g.nodes m).finiS with
              | true => exact Or.inl rfl
              | false => exact Or.inr (hmf hfs)
            rcases hm with hm | hm
            · right
              cases hx : s.g.inExit with
              | true => rfl
              | false => rw [hbef rfl hw hx] at hm; cases hm
            · exact Or.inr ((inExit_inv hr).1 hm)
          · rename_i hx
            exact Or.inr hx
          · rename_i hx _
            injection hthr with hthr
            subst hthr
            exact absurd (hul rfl) hx
      · rcases self n hb' hl hn hself hthr with ⟨f', h1, h2⟩ | h1
        · exact Or.inl ⟨f', List.mem_append_right _ h1, h2⟩
        · exact Or.inr h1
    · intro f0 e hb' n hl hn hself
      have hsp : g'.nodes = s.g.nodes ∧ g'.list = s.g.list ∧ g'.finiThreadDone = s.g.finiThreadDone ∧
          g'.inExit = s.g.inExit ∧ ∀ m, f ≠ .bt2 m := by
        subst e; clear others self old
        cases f <;> fstep_cases h <;> exact ⟨rfl, rfl, rfl, rfl, fun _ e => by cases e⟩
      obtain ⟨e1, e2, e3, e4, e5⟩ := hsp
      obtain ⟨hb, hl0, _⟩ := old n hb' hl hn (e5 n)
      rw [e1] at hself
      rw [e4]
      rcases hS s.g.nextTid hb n hl0 hn hself with ⟨f', h1, _⟩ | h1
      · rw [fresh_inv hr _ (Nat.le_refl _)] at h1; cases h1
      · exact Or.inr h1
  · intro s t i f rest pre _ _ ht _ hS _ _ _ hb n hl hn hself
    have := hS t hb n hl hn hself
    rw [ht] at this
    rcases this with ⟨f', h1, h2⟩ | h1
    · exact Or.inl ⟨f', List.mem_append_right _ h1, h2⟩
    · exact Or.inr h1
  · intro s t hrT hA _ hne hS hb n hl hn hself
    have hr : ReachA Clean s := reach_mono (fun _ _ h => h.1) hrT
    rcases hS t hb n hl hn hself with ⟨f', h1, h2⟩ | h1
    · exact Or.inl (thr_unwound hr (Or.inl rfl) h1 h2 ((list_excl hr hn hb hl).2.2 t f' h1).2 hA.2.1)
    · exact Or.inr h1
  · intro s t c d rest _ _ _ _ _
    exact ⟨trivial, fun hb => (by cases hb), fun _ _ hb => (by cases hb)⟩
  · intro s t rest _ _ _ _ _
    exact ⟨trivial, fun hb => (by cases hb), fun _ _ hb => (by cases hb)⟩

section
variable {pt : Tid → Nat} {s : S}

theorem cleanP_clean (h : ReachA (CleanP pt) s) : ReachA Clean s := reach_mono (fun _ _ h => h.1) h
theorem cleanP_all (h : ReachA (CleanP pt) s) : ReachA CleanAll s :=
  reach_mono (fun _ _ h => ⟨h.1, h.2.1, h.2.2.1, h.2.2.2.1⟩) h

theorem number_lt (h : ReachA (CleanP pt) s) {u : Tid} (hu : s.th u ≠ []) :
    u ∈ List.range s.g.nextTid := by
  rw [List.mem_range]
  apply Classical.byContradiction
  intro hn
  exact hu (fresh_inv h u (Nat.le_of_not_lt hn))

theorem onePt_eq (h : ReachA (CleanP pt) s) (h1 : OnePt pt s) {t u : Tid} (ht : s.th t ≠ [])
    (hu : s.th u ≠ []) (e : pt t = pt u) : t = u :=
  h1.1 t (number_lt h ht) u (number_lt h hu) ht hu e

theorem not_linked_late {s : S} (hr : ReachA Clean s) (hb : born s.g.tr = false) {t : Tid}
    {n : NodeId} {rest : List Frame} (ht : s.th t = .bt2 n :: rest) {ok : Bool} {v : Nat} {g' : G}
    {nx : Next} {sp : Option Frame} (hf : fstep s.g t ok v (.bt2 n) = some (g', nx, sp))
    (hx : s.g.inExit = true) (hnm : n ≠ .main) (hl : n ∈ g'.list) : False := by
  have hft : Frame.bt2 n ∈ s.th t := by rw [ht]; exact List.mem_cons_self
  have hul := list_excl hr hnm hb (n := n)
  fstep_cases hf <;> first
    | (exact absurd rfl ((hul hl).2.2 t _ hft).2)
    | (rename_i h0 _ _; exact absurd hx h0)
    | (rename_i h0 _; exact absurd hx h0)

/-- A child that is made during the exit cleanup gets no threads on its list. -/
theorem late_list {s : S} (h : ReachA Clean s) : born s.g.tr = false → s.g.inExit = true →
    (∀ w, (w, .shootdown) ∉ own s.g.tr) → ∀ n ∈ s.g.list, n = .main := by
  induction h with
  | init => intro _ hx; cases hx
  | @next s s' l hr hA hn ih =>
    have hm := move_of_next hn
    cases hm with
    | @go t f rest ok v r hd ht hf =>
      obtain ⟨g', nx, sp⟩ := r
      rw [applyRes_g]
      suffices hsuf : born g'.tr = false → g'.inExit = true →
          (∀ w, (w, .shootdown) ∉ own g'.tr) → ∀ n ∈ g'.list, n = .main by
        split <;> exact hsuf
      intro hb' hx' hno n hl
      apply Classical.byContradiction
      intro hnm
      cases hb : born s.g.tr with
      | true =>
        exact hnm (reset_list (birth_step hr ht hb).2.1 hb (fun hu => ((base_inv hr).1.2 hu).1) hf hb'
          n hl)
      | false =>
        cases hx : s.g.inExit with
        | true =>
          rcases list_new hf hnm hl with ⟨hl0, _⟩ | e
          · exact hnm (ih hb hx (fun w hw => hno w (own_mem_fstep hf _ hw)) n hl0)
          · subst e
            exact not_linked_late hr hb ht hf hx hnm hl
        | false =>
          by_cases e : f = .sd2
          · subst e
            fstep_cases hf
            exact hno t (by simp [G.emit, own, Ev.isForked])
          · have hk : g'.inExit = s.g.inExit := by
              clear ih hA hn ht hno hl hx'
              cases f <;> fstep_cases hf <;> first
                | rfl
                | exact absurd rfl e
                | (simp only [G.emit, G.upd, resetList]; try split
                   all_goals rfl)
            rw [hk, hx] at hx'; cases hx'
    | call => exact ih
    | unwind => exact ih
    | deliver => exact ih
    | interrupt => exact ih
    | fork => intro hb; cases hb
    | realFork => intro hb; cases hb

/-- Until the exit cleanup, the thread of a listed record has not ended. -/
theorem listed_alive (h : ReachA (CleanP pt) s) (hb : born s.g.tr = false) {n : NodeId} {u : Tid}
    (hl : n ∈ s.g.list) (hn : n ≠ .main) (hself : (s.g.nodes n).self = some u)
    (hno : ∀ w, (w, .shootdown) ∉ own s.g.tr) : s.th u ≠ [] := by
  rcases listed_inv (cleanP_all h) u hb n hl hn hself with ⟨f, hf, _⟩ | hx
  · exact List.ne_nil_of_mem hf
  · exact absurd (late_list (cleanP_clean h) hb hx hno n hl) hn

/-- The thread that cleans up and the threads of the listed records have different pthread_t. -/
theorem winner_pt (h : ReachA (CleanP pt) s) : ∀ w, (w, .shootdown) ∈ own s.g.tr →
    ∀ n ∈ s.g.list, n ≠ .main → ∀ u, (s.g.nodes n).self = some u → pt u = pt w → u = w := by
  induction h with
  | init => intro w h; cases h
  | @next s s' l hr hA hn ih =>
    have hr' : ReachA (CleanP pt) s' := .next hr hA hn
    have hm := move_of_next hn
    cases hm with
    | @go t f rest ok v r hd ht hf =>
      obtain ⟨g', nx, sp⟩ := r
      have e1 : (applyRes s t rest (g', nx, sp)).g.tr = g'.tr := by
        rw [applyRes_g]; split <;> rfl
      have e2 : (applyRes s t rest (g', nx, sp)).g.list = g'.list := by
        rw [applyRes_g]; split <;> rfl
      have e3 : (applyRes s t rest (g', nx, sp)).g.nodes = g'.nodes := by
        rw [applyRes_g]; split <;> rfl
      have hc := cleanP_clean hr
      have hft : f ∈ s.th t := by rw [ht]; exact List.mem_cons_self
      intro w hw n hl hnm u hself hpt
      rw [e2] at hl
      rw [e3] at hself
      by_cases hex : ∃ w0, (w0, Ev.shootdown) ∈ own s.g.tr
      · obtain ⟨w0, hw0⟩ := hex
        obtain ⟨hx, hb, _⟩ := shoot_used hc hw0
        have sub := fun tr => List.Sublist.subset (own_sublist tr)
        have hw0' : (w0, Ev.shootdown) ∈ (applyRes s t rest (g', nx, sp)).g.tr := by
          rw [e1]; exact mem_of_fstep hf _ (sub _ hw0)
        have := shootdown_unique hr' (sub _ hw) hw0'
        subst this
        rcases list_new hf hnm hl with ⟨hl0, _⟩ | e
        · rw [(list_self_keep hc ht hf hb hnm hl0 (fun _ => hx)).1] at hself
          exact ih w hw0 n hl0 hnm u hself hpt
        · subst e
          exact (not_linked_late hc hb ht hf hx hnm hl).elim
      · -- the exit cleanup begins in this step
        have hno : ∀ w, (w, Ev.shootdown) ∉ own s.g.tr := fun w hw => hex ⟨w, hw⟩
        rw [e1] at hw
        obtain ⟨es, _, k1, k2⟩ := ev_step hf
        rw [k1] at hw
        have hf2 : f = .sd2 := by
          apply Classical.byContradiction
          intro e
          rcases List.mem_append.1 hw with hw | hw
          · obtain ⟨e', h1, h2⟩ := List.mem_map.1 hw
            injection h2 with _ h2
            subst h2
            exact k2 e h1
          · exact hno w hw
        have hwt : w = t := by
          rcases List.mem_append.1 hw with hw | hw
          · obtain ⟨e', h1, h2⟩ := List.mem_map.1 hw
            injection h2 with h2 _
            exact h2.symm
          · exact absurd hw (hno w)
        subst hf2 hwt
        have hb : born s.g.tr = false := by
          cases hb : born s.g.tr with
          | false => rfl
          | true => cases (birth_step hc ht hb).2.1
        have key : g'.list = s.g.list ∧ g'.nodes = s.g.nodes := by
          clear k1 k2 hl hself e1 e2 e3 hn hr'
          fstep_cases hf
          exact ⟨rfl, rfl⟩
        rw [key.1] at hl
        rw [key.2] at hself
        exact onePt_eq hr hA.2.2.2.2.2 (listed_alive hr hb hl hnm hself hno) (by rw [ht]; simp) hpt
    | call => exact ih
    | unwind => exact ih
    | deliver => exact ih
    | interrupt => exact ih
    | fork => intro w hw; cases hw
    | realFork => intro w hw; cases hw

/-- The comparison by pthread_t agrees with the identity of the threads. -/
def Frame.comparesOk (pt : Tid → Nat) (g : G) (t : Tid) : Frame → Prop
  | .sd3 => ptEq pt g.main.self t = decide (g.main.self = some t)
  | .sdScan _ (n :: _) _ _ => ptEq pt (g.nodes n).self t = decide ((g.nodes n).self = some t)
  | .br1 _ (n :: _) => ptEq pt (g.nodes n).self t = decide ((g.nodes n).self = some t)
  | .br1 _ [] => ptEq pt g.main.self t = decide (g.main.self = some t)
  | _ => True

theorem fstepP_eq {g : G} {t : Tid} {f : Frame} (h : f.comparesOk pt g t) (ok : Bool) (v : Nat) :
    fstepP pt g t ok v f = fstep g t ok v f := by
  cases f with
  | sd3 =>
    simp only [Frame.comparesOk] at h
    simp only [fstepP, fstep, h, decide_eq_true_eq]
  | sdScan my todo a b =>
    cases todo with
    | nil => rfl
    | cons n todo =>
      simp only [Frame.comparesOk] at h
      simp only [fstepP, fstep, h, decide_eq_true_eq]
  | br1 sig todo =>
    cases todo with
    | nil =>
      simp only [Frame.comparesOk] at h
      simp only [fstepP, fstep, h, decide_eq_false_iff_not, ne_eq]
    | cons n todo =>
      simp only [Frame.comparesOk] at h
      simp only [fstepP, fstep, h, decide_eq_false_iff_not, ne_eq]
  | _ => rfl

theorem ptEq_of {o : Option Tid} {t u : Tid} (ho : o = some u) (h : pt u = pt t → u = t) :
    ptEq pt o t = decide (o = some t) := by
  subst ho
  by_cases e : u = t
  · subst e; simp [ptEq]
  · have : pt u ≠ pt t := fun e' => e (h e')
    simp [ptEq, e, this]

/-- The thread in a record that is compared, and what the comparison says. -/
theorem compares_self (h : ReachA (CleanP pt) s) {t : Tid} {ok : Bool} {v : Nat}
    (hA : CleanP pt s (.step t (.go ok v))) {n : NodeId} (hn : comparedTo (s.th t) = some n) :
    ∃ u, (s.g.nodes n).self = some u ∧ (pt u = pt t → u = t) := by
  have hc := cleanP_clean h
  cases ht : s.th t with
  | nil => rw [ht] at hn; cases hn
  | cons f rest =>
    have hft : f ∈ s.th t := by rw [ht]; exact List.mem_cons_self
    have htn : s.th t ≠ [] := by rw [ht]; simp
    have h1 := hA.2.2.2.2.2
    obtain ⟨o1, o2⟩ := hA.2.2.2.2.1 f (by rw [ht]; rfl)
    rw [ht] at hn
    have main : born s.g.tr = false → s.g.hasUsed = true →
        ∃ u, (s.g.nodes .main).self = some u ∧ (pt u = pt t → u = t) := fun hb hu =>
      ⟨_, ((tsd_inv hc).1.2 hu hb).1, fun e => (h1.2 t (number_lt h htn) htn e.symm).symm⟩
    have begun : f.isSd3 = true → f.looked = true → born s.g.tr = false ∧ s.g.hasUsed = true :=
      fun hs hl => by
        obtain ⟨_, ⟨w, e⟩, he, e1, e2⟩ := o2 hs
        subst e1
        cases e <;> first | (cases e2; done) | skip
        refine ⟨?_, looked_inv hc hft hl he⟩
        cases hb : born s.g.tr with
        | false => rfl
        | true => rw [own_born hb] at he; cases he
    cases f with
    | sd3 =>
      cases hn
      exact main (begun rfl rfl).1 (begun rfl rfl).2
    | sdScan my todo a b =>
      obtain ⟨hb, hu⟩ := begun rfl rfl
      cases todo with
      | nil => cases hn
      | cons m todo =>
        injection hn with hn
        subst hn
        by_cases hm : m = .main
        · rw [hm]; exact main hb hu
        · have hl := ((scan_inv hc hft).2 rfl).2.2 m List.mem_cons_self hm
          obtain ⟨_, u, _, hu, _⟩ := list_self hc hb hl hm
          exact ⟨u, hu, winner_pt h t (o2 rfl).1 m hl hm u hu⟩
    | br1 sig todo =>
      obtain ⟨hcall, hno⟩ := o1 rfl
      obtain ⟨_, c2⟩ := (broad_inv hc).2 t _ hft
      cases hcall' : callOf t 0 (own s.g.tr) with
      | none => exact absurd hcall' hcall
      | some p =>
        obtain ⟨l, b⟩ := p
        have hB := c2 l b hcall'
        have hb := born_of_call hcall'
        cases todo with
        | nil =>
          cases hn
          exact main hb hB.used
        | cons m todo =>
          injection hn with hn
          subst hn
          by_cases hm : m = .main
          · rw [hm]; exact main hb hB.used
          · have hl := (hB.list m List.mem_cons_self hm).1
            obtain ⟨_, u, _, hu, _⟩ := list_self hc hb hl hm
            exact ⟨u, hu, fun e => onePt_eq h h1
              (listed_alive h hb hl hm hu (fun w hw => hno _ hw rfl)) htn e⟩
    | _ => cases hn

theorem compares_ok (h : ReachA (CleanP pt) s) {t : Tid} {ok : Bool} {v : Nat} {f : Frame}
    {rest : List Frame} (ht : s.th t = f :: rest) (hA : CleanP pt s (.step t (.go ok v))) :
    f.comparesOk pt s.g t := by
  have key : ∀ n, comparedTo (f :: rest) = some n →
      ptEq pt (s.g.nodes n).self t = decide ((s.g.nodes n).self = some t) := fun n hn => by
    rw [← ht] at hn
    obtain ⟨u, hu, e⟩ := compares_self h hA hn
    exact ptEq_of hu e
  cases f with
  | sd3 => exact key .main rfl
  | sdScan my todo a b =>
    cases todo with
    | nil => trivial
    | cons n todo => exact key n rfl
  | br1 sig todo =>
    cases todo with
    | nil => exact key .main rfl
    | cons n todo => exact key n rfl
  | _ => trivial

/-- The two programs do the same. -/
theorem nextP_eq (h : ReachA (CleanP pt) s) {l : Lbl} (hA : CleanP pt s l) :
    nextP pt s l = next s l := by
  cases l with
  | fork => rfl
  | step t i =>
    cases i with
    | go ok v =>
      simp only [nextP, next, step]
      split
      · rfl
      · cases ht : s.th t with
        | nil => rfl
        | cons f rest =>
          simp only
          rw [fstepP_eq (compares_ok h ht hA) ok v]
    | _ => rfl

theorem reachP_iff : ReachP pt (CleanP pt) s ↔ ReachA (CleanP pt) s := by
  constructor
  · intro h
    induction h with
    | init => exact .init
    | next _ hA hn ih => exact .next ih hA (by rw [← nextP_eq ih hA]; exact hn)
  · intro h
    induction h with
    | init => exact .init
    | next hr hA hn ih => exact .next ih hA (by rw [nextP_eq hr hA]; exact hn)

end

theorem reachP_run {pt : Tid → Nat} {A : S → Lbl → Prop} [∀ s l, Decidable (A s l)] {s s' : S}
    {ls : List Lbl} (h : ReachP pt A s) (hr : runP pt A s ls = some s') : ReachP pt A s' := by
  induction ls generalizing s with
  | nil => cases hr; exact h
  | cons l ls ih =>
    simp only [runP] at hr
    split at hr
    · rename_i ha
      cases hn : nextP pt s l with
      | none => rw [hn] at hr; cases hr
      | some s1 => rw [hn] at hr; exact ih (.next h ha hn) hr
    · cases hr

theorem exists_of_runP {pt : Tid → Nat} {A : S → Lbl → Prop} [∀ s l, Decidable (A s l)]
    {ls : List Lbl} {p : S → Bool} (h : ((runP pt A {} ls).map p).getD false = true) :
    ∃ s, ReachP pt A s ∧ p s = true := by
  cases hr : runP pt A {} ls with
  | none => rw [hr] at h; exact absurd h (by simp)
  | some x =>
    rw [hr] at h
    exact ⟨x, reachP_run .init hr, by simpa using h⟩

end Libmonitor.Proc
