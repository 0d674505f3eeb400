import Verif.Proc.SpecFini
import Verif.Proc.BroadInv
/-!
# Fini-thread is started once: invariants
-/

namespace Libmonitor.Proc

theorem reach_mono {A B : S → Lbl → Prop} (h : ∀ s l, A s l → B s l) {s : S} (hs : ReachA A s) :
    ReachA B s := by
  induction hs with
  | init => exact .init
  | next _ hA hn ih => exact .next ih (h _ _ hA) hn

theorem calm_clean {s : S} (hs : ReachA CleanCalm s) : ReachA Clean s :=
  reach_mono (fun _ _ h => h.1) hs

/-- Nothing is above a call between the test and the note. -/
theorem top_inv {s : S} (hs : ReachA CleanCalm s) (t : Tid) : ∀ h ∈ (s.th t).tail, h.isFin0 = false := by
  induction hs generalizing t with
  | init =>
    intro h hm
    simp only at hm
    split at hm <;> cases hm
  | @next s s' l hr hA hn ih =>
    have set : ∀ {t : Tid} {l : List Frame} {th : Tid → List Frame},
        (∀ u, ∀ h ∈ (th u).tail, h.isFin0 = false) →
        (∀ h ∈ l.tail, h.isFin0 = false) → ∀ u, ∀ h ∈ (setTh th t l u).tail, h.isFin0 = false := by
      intro t l th hth hl u h hm
      by_cases e : u = t
      · subst e; rw [setTh_self] at hm; exact hl h hm
      · rw [setTh_ne _ _ e] at hm; exact hth u h hm
    have hunw : ∀ l : List Frame, ∀ h ∈ (unwound l).tail, h.isFin0 = false := by
      intro l h hm
      rcases unwound_cases l with e | ⟨_, _, _, _, e⟩ <;> rw [e] at hm <;> simp at hm
      subst hm; rfl
    have happ : ∀ {a b : List Frame}, (∀ h ∈ a.tail, h.isFin0 = false) →
        (∀ h ∈ b, h.isFin0 = false) → ∀ h ∈ (a ++ b).tail, h.isFin0 = false := by
      intro a b ha hb h hm
      cases a with
      | nil => exact hb h (List.mem_of_mem_tail hm)
      | cons x a =>
        simp only [List.cons_append, List.tail_cons] at hm
        rcases List.mem_append.1 hm with hm | hm
        · exact ha h hm
        · exact hb h hm
    have hm := move_of_next hn
    cases hm with
    | @go t' f rest ok v r hd ht hf =>
      obtain ⟨g', nx, sp⟩ := r
      have hrest : ∀ h ∈ rest, h.isFin0 = false := by
        intro h hm
        exact ih t' h (by rw [ht]; exact hm)
      have hth : ∀ u, ∀ h ∈ ((match sp with
          | some f => setTh s.th s.g.nextTid [f]
          | none => s.th) u).tail, h.isFin0 = false := by
        cases sp with
        | none => exact ih
        | some f0 => exact set ih (by simp)
      cases nx with
      | go l =>
        refine set hth (happ ?_ hrest) t
        intro h hm
        clear hth ih hrest ht hA
        cases f <;> fstep_cases hf <;> simp at hm <;> subst hm <;> rfl
      | unwind => exact set hth (hunw _) t
      | die => exact hth t
    | @call t' f rest a hd ht hf =>
      refine set ih (happ ?_ ?_) t
      · intro h hm
        cases a <;> simp only [Api.frames] at hm <;> (try split at hm) <;> simp at hm <;> subst hm <;> rfl
      · intro h hm
        rcases List.mem_cons.1 hm with e | hm
        · subst e; cases h <;> first | rfl | (cases hf; done)
        · exact ih t' h (by rw [ht]; exact hm)
    | @unwind t' f rest hd ht hf => exact set ih (hunw _) t
    | @deliver t' f rest hd ht hon hh =>
      refine set ih ?_ t
      intro h hm
      rcases List.mem_cons.1 hm with e | hm
      · subst e; exact hA.2 h (by rw [ht]; rfl)
      · exact ih t' h (by rw [ht]; exact hm)
    | @interrupt t' f rest hd ht =>
      refine set ih ?_ t
      intro h hm
      rcases List.mem_cons.1 hm with e | hm
      · subst e; exact hA.2 h (by rw [ht]; rfl)
      · exact ih t' h (by rw [ht]; exact hm)
    | @fork t' c d rest hd ht =>
      refine set (th := fun _ => []) (fun _ _ h => by cases h) ?_ t
      intro h hm
      rcases List.mem_cons.1 hm with e | hm
      · subst e; rfl
      · exact ih t' h (by rw [ht]; exact hm)
    | @realFork t' rest hd ht =>
      refine set (th := fun _ => []) (fun _ _ h => by cases h) ?_ t
      intro h hm
      exact ih t' h (by rw [ht]; exact hm)

/-- The one call of the exit cleanup. -/
def tokClean : Frame → Nat
  | .ep2 .. | .epBegin _ | .sd0 | .sd1 | .sd2 | .sd3 | .sdScan .. | .sdKill .. | .sdScan2 .. | .sdDone _ | .sdMy _ => 1
  | .fin0 _ src => if src = .winner then 1 else 0
  | _ => 0

theorem oneTok_clean {A : S → Lbl → Prop} {s : S} (hs : ReachA A s) :
    OneTok tokClean (fun g => g.cookie) (fun _ => 0) s := by
  refine oneTok_inv rfl (by simp) rfl ?_ (fun _ => rfl) (fun _ _ => ?_)
    (Nat.le_refl _) (fun _ => ⟨rfl, rfl⟩) (fun _ _ _ => ⟨rfl, ?_⟩) ?_ hs
  · intro f hf
    cases f <;> first | rfl | (simp [Frame.pushable] at hf; done)
  · simp [tokClean]
  · simp
  · intro g t ok v f g' nx sp h0 h
    cases f <;> fstep_cases h <;>
      simp [listInit, G.emit, G.upd, Next.toks, toks, tokClean, resetList]
    all_goals first
      | (simp_all; done)
      | (split <;> simp_all; done)
      | (left; split <;> omega)
      | skip

/-- How often thread `u` started fini-thread in this process. -/
def fins (g : G) (u : Tid) : Nat := occursBy u Ev.isFiniThread (own g.tr)

theorem fins_step {g g' : G} {t : Tid} {ok : Bool} {v : Nat} {f : Frame} {nx : Next}
    {sp : Option Frame} (h : fstep g t ok v f = some (g', nx, sp)) :
    (∀ u, fins g' u = fins g u) ∨ ((∃ n src, f = .fin0 n src) ∧ fins g' t = fins g t + 1 ∧
      ∀ u, u ≠ t → fins g' u = fins g u) := by
  cases f <;> fstep_cases h <;> first
    | exact Or.inl (fun _ => rfl)
    | (left; intro u
       simp [fins, listInit, G.emit, G.upd, resetList_tr, own, Ev.isForked, occursBy_cons, Ev.isFiniThread]; done)
    | (right
       refine ⟨⟨_, _, rfl⟩, ?_, fun u hu => ?_⟩
       · simp [fins, G.emit, G.upd, own, Ev.isForked, occursBy_cons, Ev.isFiniThread]
       · simp [fins, G.emit, G.upd, own, Ev.isForked, occursBy_cons, Ev.isFiniThread, Ne.symm hu])

theorem fins_born {g : G} (h : born g.tr = true) (u : Tid) : fins g u = 0 := by
  rw [fins, own_born h]; rfl

theorem finiS_keep {g g' : G} {t : Tid} {ok : Bool} {v : Nat} {f : Frame} {nx : Next}
    {sp : Option Frame} (h : fstep g t ok v f = some (g', nx, sp)) {n : NodeId}
    (hn : (g.nodes n).finiS = true) : (g'.nodes n).finiS = true ∨ (f = .ul1 n ∧ nx = .go []) ∨
      (n = .main ∧ (f = .sd3 ∨ f.resetting = true)) ∨
      ∃ a c my st ar d, f = .mk1 c my st ar d ∧ alloc g ok = some a ∧ a.n = n := by
  cases f <;> fstep_cases h <;> first
    | exact Or.inl hn
    | (left; simp only [G.emit, G.upd, listInit]; split <;> first | exact hn | rfl; done)
    | (by_cases e : n = .main
       · exact Or.inr (Or.inr (Or.inl ⟨e, Or.inl rfl⟩))
       · left; simpa [G.upd, e] using hn)
    | (by_cases e : n = .main
       · exact Or.inr (Or.inr (Or.inl ⟨e, Or.inr rfl⟩))
       · left
         simp only [G.emit, G.upd, resetList, e, if_false]
         split <;> simpa only [e, if_false] using hn)
    | skip
  · rename_i m _ _
    by_cases e : n = m
    · subst e; exact Or.inr (Or.inl ⟨rfl, rfl⟩)
    · left; simpa [G.upd, e] using hn
  · rename_i a ha
    by_cases e : n = a.n
    · exact Or.inr (Or.inr (Or.inr ⟨a, _, _, _, _, _, rfl, ha, e.symm⟩))
    · left; simpa [G.upd, e] using hn

theorem mine_back {g g' : G} {t : Tid} {ok : Bool} {v : Nat} {f : Frame} {nx : Next}
    {sp : Option Frame} (h : fstep g t ok v f = some (g', nx, sp)) {u : Tid} {n : NodeId}
    (hm : Mine g' u n) : Mine g u n ∨ (f = .bt0 n ∧ u = t) := by
  unfold Mine at hm ⊢
  rw [mainOf_fstep h] at hm
  rcases hm with hm | ⟨h1, h2, h3⟩
  · exact Or.inl (Or.inl hm)
  · have : g.tsd u = some n ∨ (f = .bt0 n ∧ u = t) := by
      clear h2
      cases f <;> fstep_cases h <;> first
        | exact Or.inl h3
        | (simp only [listInit] at h3; split at h3
           · exact absurd (Option.some.inj h3).symm h1
           · cases h3)
        | (simp only [G.emit, G.upd, resetList] at h3; split at h3
           · cases h3
           · exact Or.inl h3)
        | (simp only [G.upd] at h3; split at h3
           · injection h3 with h3; subst h3; rename_i e; exact Or.inr ⟨rfl, e⟩
           · exact Or.inl h3)
    rcases this with h | h
    · exact Or.inl (Or.inr ⟨h1, h2, h⟩)
    · exact Or.inr h

theorem mine_fun {g : G} {u : Tid} {n m : NodeId} (h : Mine g u n) (h' : Mine g u m) : n = m := by
  rcases h with ⟨h1, h2⟩ | ⟨h1, h2, h3⟩ <;> rcases h' with ⟨k1, k2⟩ | ⟨k1, k2, k3⟩
  · rw [h1, k1]
  · exact absurd h2 k2
  · exact absurd k2 h2
  · rw [h3] at k3; exact Option.some.inj k3

/-- Main's record: in the list of threads that exit cleanup stops only from there on. -/
theorem mainAppl_back {g g' : G} {t : Tid} {ok : Bool} {v : Nat} {f : Frame} {nx : Next}
    {sp : Option Frame} (hrec : f.threadRec ≠ some .main) (hfree : .main ∉ g.free)
    (h : fstep g t ok v f = some (g', nx, sp)) (ha : g'.main.appl = true) :
    g.main.appl = true ∨ f = .sd3 := by
  cases f <;> fstep_cases h <;> first
    | exact Or.inl ha
    | exact Or.inr rfl
    | (left; simp only [G.main, G.emit, G.upd, listInit] at ha ⊢; split at ha <;> first
        | exact ha
        | (cases ha; done)
        | (rename_i e; exact absurd (by rw [e]; rfl) hrec))
    | (left
       simp only [G.main, G.emit, G.upd, resetList, resetMain, if_true] at ha ⊢
       (try split at ha) <;> (try split at ha) <;> (try split at ha) <;> first
         | exact ha
         | (cases ha; done))

theorem mainAppl_keep {g g' : G} {t : Tid} {ok : Bool} {v : Nat} {f : Frame} {nx : Next}
    {sp : Option Frame} (hrec : f.threadRec ≠ some .main) (hfree : .main ∉ g.free)
    (hr : f.resetting = false)
    (h : fstep g t ok v f = some (g', nx, sp)) (ha : g.main.appl = true) :
    g'.main.appl = true := by
  cases f <;> fstep_cases h <;> first
    | exact ha
    | (simp [Frame.resetting] at hr; done)
    | (simp only [G.main, G.emit, G.upd, listInit] at ha ⊢; split <;> first
        | exact ha
        | rfl
        | (rename_i e; exact absurd (by rw [e]; rfl) hrec)
        | (rename_i e; exact absurd e.symm (alloc_ne_main hfree (by assumption)).1))

/-- Where fini-thread may still be started. -/
structure OnceF (g : G) (u : Tid) (f : Frame) : Prop where
  sd3 : f = .sd3 → fins g (mainOf g.tr) = 0 ∧ g.main.appl = false
  fin0 : ∀ n src, f = .fin0 n src → fins g u = 0 ∧ (src ≠ .winner → (g.nodes n).appl = true)
  done : 1 ≤ fins g u → ∀ n, Mine g u n → (f = .tdtor → n = .main) → (g.nodes n).finiS = true
  bt0 : ∀ n, f = .bt0 n → fins g u = 0

def OnceG (g : G) : Prop :=
  (g.main.appl = true ∨ 1 ≤ fins g (mainOf g.tr) → 1 ≤ occurs Ev.isShootdown g.tr) ∧
  (∀ u, fins g u ≤ 1) ∧ ∀ u, g.nextTid ≤ u → fins g u = 0

theorem occurs_mono {g g' : G} {t : Tid} {ok : Bool} {v : Nat} {f : Frame} {nx : Next}
    {sp : Option Frame} (h : fstep g t ok v f = some (g', nx, sp)) (p : Ev → Bool) :
    occurs p g.tr ≤ occurs p g'.tr := by
  obtain ⟨es, h⟩ : ∃ es, g'.tr = es ++ g.tr := by
    cases f <;> fstep_cases h <;> first
      | exact ⟨[], rfl⟩
      | exact ⟨[_], rfl⟩
      | exact ⟨[_, _], rfl⟩
      | exact ⟨[_], by simp only [G.emit, G.upd, resetList_tr]; rfl⟩
  rw [h]; simp [occurs]

theorem occurs_pos {u : Tid} {p : Ev → Bool} {e : Ev} {tr : Hist} (h : (u, e) ∈ tr)
    (hp : p e = true) : 1 ≤ occurs p tr :=
  List.countP_pos_iff.2 ⟨_, h, hp⟩

theorem nextTid_mono {g g' : G} {t : Tid} {ok : Bool} {v : Nat} {f : Frame} {nx : Next}
    {sp : Option Frame} (h : fstep g t ok v f = some (g', nx, sp)) : g.nextTid ≤ g'.nextTid := by
  cases f <;> fstep_cases h <;> first
    | exact Nat.le_refl _
    | exact Nat.le_succ _
    | (simp only [G.emit, G.upd, resetList]; split <;> exact Nat.le_refl _)

/-- Who is about to start fini-thread does it for the own record. -/
theorem fin0_mine {s : S} (hs : ReachA Clean s) {t : Tid} {n : NodeId} {src : Src}
    (hf : .fin0 n src ∈ s.th t) : Mine s.g t n := by
  rcases fin_rec n src with h | h
  · exact held_inv hs hf h
  · have hne := thr_ne_main hs hf h rfl
    exact Or.inr ⟨claims_ne_main hs hf (Or.inr h), hne, ((tsd_inv hs).2 t _ hf).2 n h (by simp) hne⟩

/-- A frame other than the destructors: the thread's record is owned. -/
theorem live_claims {s : S} (hs : ReachA Clean s) {t : Tid} {h : Frame} (hh : h ∈ s.th t)
    (ht : h ≠ .tdtor) {n : NodeId} (hm : Mine s.g t n) (hn : n ≠ .main) :
    ∃ f ∈ s.th t, f.thr = some n ∧ f ≠ .bt0 n ∧ claims s.g t f n := by
  refine mine_claims hs hm hn ?_ ?_
  · intro e; rw [e] at hh; cases hh
  · intro e; rw [e, List.mem_singleton] at hh; exact ht hh

theorem bt0_fin0 {s : S} (hs : ReachA Clean s) {t : Tid} {k n : NodeId} {src : Src}
    (h1 : .bt0 k ∈ s.th t) (h2 : .fin0 n src ∈ s.th t) : False := by
  have hne := thr_ne_main hs h1 (n := k) rfl rfl
  have hm := fin0_mine hs h2
  have hn : n ≠ .main := by
    rcases hm with ⟨_, e⟩ | ⟨e, _⟩
    · exact absurd e hne
    · exact e
  obtain ⟨f, hf, k1, k2, k3⟩ := live_claims hs h2 (by simp) hm hn
  obtain ⟨a, b, e1, e2⟩ := shape_mem (shape_inv hs t) h1
  have hb : b = [] := e2.1 rfl
  subst hb
  obtain ⟨a', b', e3, e4⟩ := shape_mem (shape_inv hs t) hf
  have hl : (s.th t).getLast? = some (.bt0 k) := by rw [e1]; simp
  have : b' = [] ∨ b' = [.tdtor] := by
    have : f.bottom = true ∨ f.cleanup = true := by
      cases f <;> first
        | exact Or.inl rfl
        | exact Or.inr rfl
        | (cases k1; done)
        | (simp only [Frame.thr] at k1; split at k1
           · rename_i e; subst e; exact Or.inr rfl
           · cases k1)
    rcases this with h | h
    · exact Or.inl (e4.1 h)
    · exact Or.inr (e4.2.1 h)
  rcases this with h | h
  · subst h
    rw [e3] at hl
    simp at hl
    subst hl
    injection k1 with k1
    exact k2 (by rw [k1])
  · subst h
    rw [e3] at hl
    simp at hl

theorem onceF_done {s : S} (hr : ReachA Clean s) {t : Tid} {f : Frame} {rest : List Frame} {ok : Bool}
    {v : Nat} {g' : G} {nx : Next} {sp : Option Frame} (ht : s.th t = f :: rest)
    (hf : fstep s.g t ok v f = some (g', nx, sp)) (hF : ∀ u h, h ∈ s.th u → OnceF s.g u h)
    {u : Tid} {h : Frame} (hh : h ∈ s.th u) {n : NodeId}
    (hul : f = .ul1 n → nx = .go [] → u = t → n ≠ .main → False) (hbt : u = t → f ≠ .bt0 n)
    (hc : 1 ≤ fins g' u) (hm : Mine g' u n)
    (htd : h = .tdtor → n = .main) : (g'.nodes n).finiS = true := by
  have hft : f ∈ s.th t := by rw [ht]; exact List.mem_cons_self
  have hm0 : Mine s.g u n := by
    rcases mine_back hf hm with h | ⟨h1, h2⟩
    · exact h
    · exact absurd h1 (hbt h2)
  have hcase : (u = t ∧ ∃ m src, f = .fin0 m src) ∨ 1 ≤ fins s.g u := by
    rcases fins_step hf with h | ⟨h1, h2, h3⟩
    · right; rw [← h u]; exact hc
    · by_cases e : u = t
      · exact Or.inl ⟨e, h1⟩
      · right; rw [← h3 u e]; exact hc
  rcases hcase with ⟨e, m, src, e2⟩ | hc
  · subst e; subst e2
    have := mine_fun hm0 (fin0_mine hr hft)
    subst this
    fstep_cases hf
    simp [G.emit, G.upd]
  · have hS := (hF u h hh).done hc n hm0 htd
    rcases finiS_keep hf hS with h1 | ⟨h1, h2⟩ | ⟨h1, h2⟩ | ⟨a, c, my, st, ar, d, h1, h2, h3⟩
    · exact h1
    · exfalso
      have hn : n ≠ .main := by
        intro e
        have := (rec_inv hr).2 t f hft
        rw [h1, e] at this; exact this rfl
      have hht : h ≠ .tdtor := fun e => hn (htd e)
      obtain ⟨f', hf', k1, k2, k3⟩ := live_claims hr hh hht hm0 hn
      subst h1
      have hne := thr_ne_main hr hft (n := n) rfl rfl
      obtain ⟨e1, e2⟩ := claims_excl hr hn hf' k3 hft (Or.inr ⟨hne, rfl⟩)
      exact hul rfl h2 e1 hn
    · exfalso
      subst h1
      have hu : u = mainOf s.g.tr := by
        rcases hm0 with ⟨_, e⟩ | ⟨e, _⟩
        · exact e
        · exact absurd rfl e
      subst hu
      rcases h2 with h2 | h2
      · have := ((hF t f hft).sd3 h2).1; omega
      · cases hb : born s.g.tr with
        | true => have := fins_born hb (mainOf s.g.tr); omega
        | false => have := not_resetting hr hft hb; rw [h2] at this; cases this
    · exfalso
      have hn : n ≠ .main := by
        rw [← h3]; exact (alloc_ne_main (rec_inv hr).1 h2).1
      have hht : h ≠ .tdtor := fun e => hn (htd e)
      obtain ⟨f', hf', k1, k2, k3⟩ := live_claims hr hh hht hm0 hn
      have h4 := claims_avail hr hn hf' k3
      have h5 := alloc_pos (arr_inv hr) h2
      rw [h3] at h5; omega

/-- The test before fini-thread. -/
theorem fin0_new {g g' : G} {t : Tid} {ok : Bool} {v : Nat} {f : Frame} {l : List Frame}
    {sp : Option Frame} (h : fstep g t ok v f = some (g', .go l, sp)) {n : NodeId} {src : Src}
    (hm : .fin0 n src ∈ l) : g' = g ∧ (g.nodes n).finiS = false ∧ f ≠ .tdtor ∧
      (src ≠ .winner → (g.nodes n).appl = true) ∧
      ((f = .h0 ∧ g.tsd t = some n) ∨ f = .cl0 n ∨ (f = .sw0 ∧ getTn g t = some n) ∨
        f = .sdMy (some n)) := by
  cases f <;> fstep_cases h <;> simp at hm <;> obtain ⟨rfl, rfl⟩ := hm <;>
    simp_all [mayFini]

theorem sd3_new {g g' : G} {t : Tid} {ok : Bool} {v : Nat} {f : Frame} {l : List Frame}
    {sp : Option Frame} (h : fstep g t ok v f = some (g', .go l, sp)) (hm : .sd3 ∈ l) : f = .sd2 := by
  cases f <;> fstep_cases h <;> simp at hm <;> rfl

theorem spawn_kind {g g' : G} {t : Tid} {ok : Bool} {v : Nat} {f h : Frame} {nx : Next}
    (hf : fstep g t ok v f = some (g', nx, some h)) :
    h ≠ .sd3 ∧ (∀ n src, h ≠ .fin0 n src) ∧ (∀ n src, f ≠ .fin0 n src) := by
  cases f <;> fstep_cases hf <;> simp

theorem unwind_kind {g g' : G} {t : Tid} {ok : Bool} {v : Nat} {f : Frame} {sp : Option Frame}
    (hf : fstep g t ok v f = some (g', .unwind, sp)) : g' = g := by
  cases f <;> fstep_cases hf <;> rfl

theorem tdtor_new {g g' : G} {t : Tid} {ok : Bool} {v : Nat} {l : List Frame}
    {sp : Option Frame} (h : fstep g t ok v .tdtor = some (g', .go l, sp)) (hl : l ≠ []) :
    ok = false := by
  fstep_cases h
  · exact absurd rfl hl
  · rename_i hk; simpa using hk

theorem once_inv {s : S} (hs : ReachA CleanCalm s) :
    OnceG s.g ∧ ∀ u h, h ∈ s.th u → OnceF s.g u h := by
  have fresh : ∀ {s : S} {t : Tid} {f : Frame} {rest : List Frame}, ReachA CleanCalm s →
      s.th t = f :: rest → t < s.g.nextTid := by
    intro s t f rest hr ht
    rcases Nat.lt_or_ge t s.g.nextTid with h | h
    · exact h
    · rw [fresh_inv hr t h] at ht; cases ht
  have zero : ∀ {g : G} {u : Tid} {h : Frame}, fins g u = 0 → h ≠ .sd3 → (∀ n src, h ≠ .fin0 n src) →
      OnceF g u h := fun h0 h1 h2 =>
    ⟨fun e => absurd e h1, fun n src e => absurd e (h2 n src), fun h => (by omega), fun _ _ => h0⟩
  have hunw : ∀ {s : S} {t : Tid}, (∀ u h, h ∈ s.th u → OnceF s.g u h) →
      s.th t ≠ [] → ∀ {l : List Frame}, (∀ h ∈ l, h ∈ s.th t) →
      ∀ h ∈ unwound l, OnceF s.g t h := by
    intro s t hF hne l hl h hm
    have key : ∀ n, (h = .tdtor ∧ n = .main) ∨ (∃ f' ∈ s.th t, f' ≠ .tdtor) → 1 ≤ fins s.g t →
        Mine s.g t n → (s.g.nodes n).finiS = true := by
      intro n hc h1 h2
      rcases hc with ⟨_, e⟩ | ⟨f', hf', hd⟩
      · obtain ⟨f0, r0, e0⟩ := List.exists_cons_of_ne_nil hne
        exact (hF t f0 (by rw [e0]; exact List.mem_cons_self)).done h1 n h2 (fun _ => e)
      · exact (hF t f' hf').done h1 n h2 (fun e => absurd e hd)
    rcases unwound_cases l with e | ⟨f', m, h1, h2, e⟩
    · rw [e, List.mem_singleton] at hm; subst hm
      exact ⟨by simp, by simp, fun h1 n h2 h3 => key n (Or.inl ⟨rfl, h3 rfl⟩) h1 h2, by simp⟩
    · rw [e] at hm
      rcases List.mem_cons.1 hm with hm | hm
      · subst hm
        refine ⟨by simp, by simp, fun k1 n k2 k3 => key n (Or.inr ⟨f', hl _ h1, ?_⟩) k1 k2, by simp⟩
        intro e; subst e; cases h2
      · rw [List.mem_singleton] at hm; subst hm
        exact ⟨by simp, by simp, fun h1 n h2 h3 => key n (Or.inl ⟨rfl, h3 rfl⟩) h1 h2, by simp⟩
  have slotGone : ∀ {s : S} {t : Tid} {n : NodeId}, s.th t = [.tdtor] → Mine s.g t n → n ≠ .main →
      gone s t = true := by
    intro s t n h1 h2 h3
    rcases h2 with ⟨e, _⟩ | ⟨_, _, h2⟩
    · exact absurd e h3
    · cases n with
      | main => exact absurd rfl h3
      | slot a i => simp [gone, h1, h2]
  have hforkF : ∀ {s : S} {t : Tid} {real : Bool} {f0 : Frame} {rest l : List Frame},
      ReachA CleanCalm s → s.th t = f0 :: rest → OnceG s.g → (∀ u h, h ∈ s.th u → OnceF s.g u h) →
      (∀ h ∈ l, h ≠ .sd3 ∧ ∀ n src, h ≠ .fin0 n src) →
      OnceG (s.g.emit t (.forked real)) ∧ ∀ h ∈ l ++ rest, OnceF (s.g.emit t (.forked real)) t h := by
    intro s t real f0 rest l hr ht hG hF hl
    have h0 : ∀ u, fins (s.g.emit t (.forked real)) u = 0 := fun u => fins_born rfl u
    refine ⟨⟨?_, fun u => by rw [h0]; omega, fun u _ => h0 u⟩, ?_⟩
    · intro h
      have : 1 ≤ occurs Ev.isShootdown s.g.tr := by
        rcases h with h | h
        · exact hG.1 (Or.inl h)
        · rw [h0] at h; omega
      simpa [G.emit, occurs_cons, Ev.isShootdown] using this
    · intro h hm
      refine ⟨fun e => ⟨h0 _, ?_⟩, ?_, fun h => by rw [h0] at h; omega, fun _ _ => h0 _⟩
      · rcases List.mem_append.1 hm with hm | hm
        · exact absurd e (hl h hm).1
        · exact ((hF t h (by rw [ht]; exact List.mem_cons_of_mem _ hm)).sd3 e).2
      · intro n src e
        rcases List.mem_append.1 hm with hm | hm
        · exact absurd e ((hl h hm).2 n src)
        · have := top_inv hr t h (by rw [ht]; exact hm)
          rw [e] at this; cases this
  refine frames_invA (A := CleanCalm) (GI := OnceG) (FI := OnceF) ?_ ?_ ?_ (fun _ h => h)
    (fun _ _ _ h => ⟨h.1, h.2, h.3, h.4⟩) ?_ ?_ ?_ ?_ hs
  · exact ⟨(fun h => by rcases h with h | h <;> cases h), fun _ => Nat.zero_le _, fun _ _ => rfl⟩
  · exact zero rfl (by simp) (by simp)
  · intro s t f rest ok v g' nx sp hr hA ht hG hF h
    have hrc := calm_clean hr
    have hft : f ∈ s.th t := by rw [ht]; exact List.mem_cons_self
    have htop := top_inv hr t
    rw [ht, List.tail_cons] at htop
    have hmo := mainOf_fstep h
    have hrec := (rec_inv hr).2 t f hft
    have hfree := (rec_inv hr).1
    obtain ⟨hG1, hG2, hG3⟩ := hG
    have htl := fresh hr ht
    have hfin : ∀ n src, f = .fin0 n src → t = mainOf s.g.tr →
        n = .main ∧ (src ≠ .winner → s.g.main.appl = true) ∧ 1 ≤ occurs Ev.isShootdown s.g.tr := by
      intro n src e e2
      subst e
      have hmn : n = .main := by
        rcases fin0_mine hrc hft with ⟨h, _⟩ | ⟨_, h, _⟩
        · exact h
        · exact absurd e2 h
      subst hmn
      refine ⟨rfl, fun hs => ((hF t _ hft).fin0 _ _ rfl).2 hs, ?_⟩
      by_cases hs : src = .winner
      · subst hs
        exact occurs_pos (shooting_inv hr hft rfl) rfl
      · exact hG1 (Or.inl (((hF t _ hft).fin0 _ _ rfl).2 hs))
    have hsh := shape_inv hr t
    rw [ht] at hsh
    refine ⟨⟨?_, ?_, ?_⟩, ?_, ?_, ?_, ?_, ?_⟩
    · intro hc
      refine Nat.le_trans ?_ (occurs_mono h Ev.isShootdown)
      rcases hc with hc | hc
      · rcases mainAppl_back hrec hfree h hc with h1 | h1
        · exact hG1 (Or.inl h1)
        · subst h1; exact occurs_pos (shooting_inv hr hft rfl) rfl
      · rw [hmo] at hc
        rcases fins_step h with h1 | ⟨⟨n, src, h1⟩, h2, h3⟩
        · rw [h1] at hc; exact hG1 (Or.inr hc)
        · by_cases e : t = mainOf s.g.tr
          · exact (hfin n src h1 e).2.2
          · rw [h3 _ (Ne.symm e)] at hc; exact hG1 (Or.inr hc)
    · intro u
      rcases fins_step h with h1 | ⟨⟨n, src, h1⟩, h2, h3⟩
      · rw [h1]; exact hG2 u
      · by_cases e : u = t
        · subst e; rw [h2, ((hF u f hft).fin0 n src h1).1]; omega
        · rw [h3 u e]; exact hG2 u
    · intro u hu
      have hu' : s.g.nextTid ≤ u := Nat.le_trans (nextTid_mono h) hu
      rcases fins_step h with h1 | ⟨⟨n, src, h1⟩, h2, h3⟩
      · rw [h1]; exact hG3 u hu'
      · rw [h3 u (by omega)]; exact hG3 u hu'
    · intro u h' hh' hrest
      refine ⟨?_, ?_, ?_, ?_⟩
      · intro e; subst e
        obtain ⟨k1, k2⟩ := (hF u _ hh').sd3 rfl
        have hex : tokClean f ≠ 1 := by
          intro e1
          obtain ⟨_, j1, j2⟩ := oneTok_holder (oneTok_clean hr) ht e1
          by_cases e : u = t
          · have := toks_mem (tok := tokClean) (hrest e)
            rw [j1] at this
            simp [tokClean] at this
          · have := toks_mem (tok := tokClean) hh'
            rw [j2 u e] at this
            simp [tokClean] at this
        have ha : g'.main.appl = false := by
          cases ha : g'.main.appl with
          | false => rfl
          | true =>
            rcases mainAppl_back hrec hfree h ha with h1 | h1
            · rw [k2] at h1; cases h1
            · subst h1; exact absurd rfl hex
        refine ⟨?_, ha⟩
        rw [hmo]
        rcases fins_step h with h1 | ⟨⟨n, src, h1⟩, h2, h3⟩
        · rw [h1]; exact k1
        · by_cases e : t = mainOf s.g.tr
          · exfalso
            have := (hfin n src h1 e).2.1
            rw [k2] at this
            by_cases hs : src = .winner
            · subst hs; subst h1; exact hex rfl
            · cases this hs
          · rw [h3 _ (Ne.symm e)]; exact k1
      · intro n src e
        by_cases eu : u = t
        · exfalso
          have := htop _ (hrest eu)
          rw [e] at this; cases this
        · obtain ⟨k1, k2⟩ := (hF u _ hh').fin0 n src e
          refine ⟨?_, fun hs => ?_⟩
          · rcases fins_step h with h1 | ⟨_, _, h3⟩
            · rw [h1]; exact k1
            · rw [h3 u eu]; exact k1
          · subst e
            by_cases em : n = .main
            · subst em
              refine mainAppl_keep hrec hfree ?_ h (k2 hs)
              cases hb : born s.g.tr with
              | true =>
                have := (birth_step hrc ht hb).2.2.2 u eu
                rw [this] at hh'; cases hh'
              | false => exact not_resetting hrc hft hb
            · obtain ⟨f', j1, j2, _, j3⟩ := live_claims hrc hh' (by simp) (fin0_mine hrc hh') em
              rw [nodes_keep hrc ht h eu j1 j3]
              exact k2 hs
      · intro hc n hm htd
        refine onceF_done hrc ht h hF hh' ?_ ?_ hc hm htd
        · intro e _ eu hn
          have hr' := hrest eu
          subst e
          rw [hsh.2.1 rfl, List.mem_singleton] at hr'
          exact hn (htd hr')
        · intro eu e
          have hr' := hrest eu
          subst e
          rw [hsh.1 rfl] at hr'; cases hr'
      · intro n e; subst e
        have k1 := (hF u _ hh').bt0 n rfl
        rcases fins_step h with h1 | ⟨⟨m, src, h1⟩, h2, h3⟩
        · rw [h1]; exact k1
        · by_cases eu : u = t
          · subst eu; subst h1
            exact (bt0_fin0 hrc hh' hft).elim
          · rw [h3 u eu]; exact k1
    · intro e; subst e
      refine ⟨?_, ?_, ?_, ?_⟩
      · intro e; subst e; fstep_cases h
      · intro n src e; subst e; fstep_cases h
      · intro hc n hm htd
        refine onceF_done hrc ht h hF hft (fun _ e => by cases e) ?_ hc hm htd
        intro _ e; subst e; fstep_cases h
      · intro n e; subst e; fstep_cases h
    · intro l e h' hl
      subst e
      refine ⟨?_, ?_, ?_, ?_⟩
      · intro e; subst e
        have e := sd3_new h hl
        subst e
        have h0 := (oneTok_holder (oneTok_shoot hr) ht rfl).1
        have ha : g'.main.appl = false := by
          cases ha : g'.main.appl with
          | false => rfl
          | true =>
            rcases mainAppl_back hrec hfree h ha with h1 | h1
            · have := hG1 (Or.inl h1); omega
            · cases h1
        refine ⟨?_, ha⟩
        rw [hmo]
        rcases fins_step h with h1 | ⟨⟨n, src, h1⟩, _⟩
        · rw [h1]
          rcases Nat.eq_zero_or_pos (fins s.g (mainOf s.g.tr)) with h2 | h2
          · exact h2
          · have := hG1 (Or.inr h2); omega
        · cases h1
      · intro n src e; subst e
        obtain ⟨e1, e2, e3, e4, e5⟩ := fin0_new h hl
        subst e1
        refine ⟨?_, e4⟩
        have hm : Mine s.g t n := by
          have hb : f.resetting = false := by
            rcases e5 with ⟨e, _⟩ | e | ⟨e, _⟩ | e <;> subst e <;> rfl
          have hb := not_born hrc ht hb
          have hne : s.th t ≠ [] := by rw [ht]; simp
          rcases e5 with ⟨e, h1⟩ | e | ⟨e, h1⟩ | e
          · exact tsd_mine hrc hb hne h1
          · subst e
            have hn := thr_ne_main hrc hft (n := n) rfl rfl
            exact Or.inr ⟨claims_ne_main hrc hft (Or.inr rfl), hn,
              ((tsd_inv hrc).2 t _ hft).2 n rfl (by simp) hn⟩
          · exact getTn_mine hrc hb hne h1
          · subst e; exact held_inv hrc hft rfl
        rcases Nat.eq_zero_or_pos (fins s.g t) with h0 | h0
        · exact h0
        · have := (hF t f hft).done h0 n hm (fun e => absurd e e3)
          rw [e2] at this; cases this
      · intro hc n hm htd
        by_cases eb : ∃ m, f = .bt0 m
        · obtain ⟨m, e⟩ := eb
          subst e
          have h0 := (hF t _ hft).bt0 m rfl
          rcases fins_step h with h1 | ⟨⟨_, _, h1⟩, _⟩
          · rw [h1] at hc; omega
          · cases h1
        · refine onceF_done hrc ht h hF hft ?_ (fun _ e => eb ⟨_, e⟩) hc hm ?_
          · intro _ e _ _; injection e with e; subst e; cases hl
          · intro e; subst e
            by_cases hn : n = .main
            · exact hn
            · exfalso
              have hr0 : rest = [] := hsh.1 rfl
              subst hr0
              have hm0 : Mine s.g t n := by
                rcases mine_back h hm with h | ⟨h, _⟩
                · exact h
                · cases h
              have hok := hA.1.1 (slotGone ht hm0 hn)
              have := tdtor_new h (by intro e; subst e; cases hl)
              rw [hok] at this; cases this
      · intro n e; subst e
        exact absurd rfl ((tsd_new h hl).2 n rfl).1
    · intro h' e
      subst e
      obtain ⟨h1, h2, h3⟩ := spawn_kind h
      refine zero ?_ h1 h2
      rcases fins_step h with h4 | ⟨⟨m, src, h4⟩, _⟩
      · rw [h4]; exact hG3 _ (Nat.le_refl _)
      · exact absurd h4 (h3 m src)
    · intro e; subst e
      have e := unwind_kind h
      subst e
      exact hunw hF (by rw [ht]; simp) (fun h hm => by rw [ht]; exact List.mem_cons_of_mem _ hm)
  · intro s t i h hr hA hG hne hF hu hgo hp htd
    obtain ⟨f0, r0, e0⟩ := List.exists_cons_of_ne_nil hne
    have hf0 : f0 ∈ s.th t := by rw [e0]; exact List.mem_cons_self
    refine ⟨fun e => ?_, fun n src e => ?_, fun h1 n h2 _ => ?_, fun n e => ?_⟩
    · subst e; cases hp
    · subst e; cases hp
    · by_cases hn : n = .main
      · exact (hF t f0 hf0).done h1 n h2 (fun _ => hn)
      · by_cases hd : f0 = .tdtor
        · exfalso
          subst hd
          have hsh := shape_inv hr t
          rw [e0] at hsh
          have hr0 : r0 = [] := hsh.1 rfl
          subst hr0
          have hg := slotGone e0 h2 hn
          have hA := hA.1
          cases i with
          | go ok v => exact hgo ok v rfl
          | unwind => exact hu rfl
          | call a => rw [show gone s t = false from hA] at hg; cases hg
          | deliver => rw [hA.2] at hg; cases hg
          | interrupt => rw [hA.2] at hg; cases hg
        · exact (hF t f0 hf0).done h1 n h2 (fun e => absurd e hd)
    · subst e; cases hp
  · intro s t hr hA hG hne hF
    exact hunw hF hne (fun _ h => h)
  · intro s t c d rest hr hA ht hG hF
    exact hforkF (l := [.bp0 true d, .fkChild c]) hr ht hG hF (by simp)
  · intro s t rest hr hA ht hG hF
    exact hforkF (l := [.rfReset]) hr ht hG hF (by simp)

end Libmonitor.Proc
