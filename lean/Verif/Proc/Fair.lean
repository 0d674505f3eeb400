import Verif.Proc.SpecFair
import Verif.Proc.PropsWait
import Verif.Proc.OwnNode
/-!
# Executions under a fair scheduler: lemmas

Every step of a thread that goes on decreases a measure, except in the loop that waits for the
fini-thread calls.  So from some time on there is nothing but that loop, and it ends, because
the threads it waits for can go on.
-/

namespace Libmonitor.Proc

/-- More than what the steps of the frame, and of what it leads to, put in its place. -/
def Frame.cost : Frame → Nat
  | .el0 | .bl0 | .bpCall _ | .ul0 _ | .epFini _ | .epWait _ | .pc8 .. | .br1 .. | .brKill ..
  | .fkPost0 .. => 2
  | .finCb .. | .epFini0 _ | .br0 _ | .fkReal .. => 3
  | .realExit | .xUExit | .xExec | .xSig _ | .fin0 .. | .fkPre _ => 4
  | .tdtor | .xMain | .xErr | .xExit | .cl0 _ | .h0 | .sw0 | .sdMy _ | .bpFlags _ | .fk0 => 5
  | .px1 | .ignApp | .sdDone _ | .bpReset _ => 6
  | .ign .. | .sdScan .. | .sdKill .. | .sdScan2 .. | .bp0 .. => 7
  | .sd3 | .pcIgn .. => 8
  | .sd2 => 9 | .sd1 => 10 | .sd0 => 11
  | .btApp _ => 11 | .bt5 _ => 12 | .bt4 _ => 13 | .btInit _ => 14 | .bt3 _ => 15
  | .bt2 _ => 16 | .bt1 _ => 17 | .bt0 _ => 18
  | .epBegin _ => 15 | .ep2 .. => 16 | .ep1 .. => 17 | .ep0 _ => 18
  | .mainApp => 24 | .mainAt => 25 | .mainAt0 => 26 | .start => 34
  | .px0 => 25
  | .pc7 .. => 21 | .pcStack .. => 22 | .pc6 .. => 23 | .mk1 .. => 24 | .mk0 .. => 25
  | .pcPre .. => 26 | .pc5 .. => 27 | .pcSup .. => 28 | .pcSup1 .. => 29 | .pcSup0 .. => 30
  | .pc4 .. => 31 | .pc3 .. => 32 | .pc2 .. => 40 | .pc1 .. => 41 | .pc0 .. => 42
  | _ => 1

/-- Steps left in the loop of monitor_broadcast_signal. -/
def Frame.laps : Frame → Nat
  | .br1 _ todo => 2 * todo.length + 1
  | .brKill _ _ todo => 2 * todo.length + 2
  | _ => 0

def spCost (w : Frame → Nat) (sp : Option Frame) : Nat := (sp.map w).getD 0

/-- The globals but for the history. -/
def vars (g : G) : G := { g with tr := [] }

/-- A step within the loop that waits for the fini-thread calls. -/
def pollStep (g g' : G) (f : Frame) (nx : Next) (sp : Option Frame) : Prop :=
  vars g' = vars g ∧ sp = none ∧ ∃ f', nx = .go [f'] ∧ f.polls = true ∧ f'.polls = true

theorem cost_go {g g' : G} {t : Tid} {ok : Bool} {v : Nat} {f : Frame} {l : List Frame}
    {sp : Option Frame} (h : fstep g t ok v f = some (g', .go l, sp)) :
    pollStep g g' f (.go l) sp ∨ toks Frame.cost l + spCost Frame.cost sp < f.cost ∨
      (toks Frame.cost l = f.cost ∧ sp = none ∧ toks Frame.laps l < f.laps) := by
  cases f
  all_goals (fstep_cases h <;> first
    | exact Or.inr (Or.inl (Nat.le_of_ble_eq_true rfl))
    | exact Or.inl ⟨rfl, rfl, _, rfl, rfl, rfl⟩
    | (refine Or.inr (Or.inr ⟨rfl, rfl, ?_⟩)
       simp only [toks, Frame.laps, List.map_cons, List.map_nil, List.sum_cons, List.sum_nil,
         List.length_cons]
       omega)
    | (right; left; simp only [toks]; split <;> exact Nat.le_of_ble_eq_true rfl))

theorem cost_unwind {g g' : G} {t : Tid} {ok : Bool} {v : Nat} {f : Frame} {sp : Option Frame}
    (h : fstep g t ok v f = some (g', .unwind, sp)) : sp = none ∧ 6 ≤ f.cost := by
  cases f <;> fstep_cases h <;> exact ⟨rfl, Nat.le_of_ble_eq_true rfl⟩

theorem cost_unwound (l : List Frame) : toks Frame.cost (unwound l) < 6 + toks Frame.cost l := by
  rcases unwound_cases l with e | ⟨f, n, hf, ha, e⟩
  · rw [e]
    have : toks Frame.cost [.tdtor] = 5 := rfl
    omega
  · rw [e]
    have h1 : toks Frame.cost [.cl0 n, .tdtor] = 10 := rfl
    have h2 := toks_mem (tok := Frame.cost) hf
    have h3 : 11 ≤ f.cost := by
      cases f <;> first | exact Nat.le_of_ble_eq_true rfl | (simp [Frame.armed] at ha; done)
    omega

/-! ## Sums over the threads -/

def tot (w : Frame → Nat) (th : Tid → List Frame) : Nat → Nat
  | 0 => 0
  | n + 1 => tot w th n + toks w (th n)

theorem tot_ge {w : Frame → Nat} {th : Tid → List Frame} {t : Tid} (l : List Frame) {n : Nat}
    (h : n ≤ t) : tot w (setTh th t l) n = tot w th n := by
  induction n with
  | zero => rfl
  | succ n ih =>
    simp only [tot]
    rw [ih (by omega), setTh_ne _ _ (by omega)]

theorem tot_lt {w : Frame → Nat} {th : Tid → List Frame} {t : Tid} (l : List Frame) {n : Nat}
    (h : t < n) : tot w (setTh th t l) n + toks w (th t) = tot w th n + toks w l := by
  induction n with
  | zero => omega
  | succ n ih =>
    simp only [tot]
    by_cases e : t = n
    · subst e
      rw [tot_ge l (Nat.le_refl _), setTh_self]; omega
    · have := ih (by omega)
      rw [setTh_ne _ _ (by omega)]; omega

def total (w : Frame → Nat) (s : S) : Nat := tot w s.th s.g.nextTid

/-- The measure. -/
def meas (s : S) : Nat × Nat := (total Frame.cost s, total Frame.laps s)

/-- Effect of a step on a sum. -/
theorem total_go {w : Frame → Nat} {s : S} {u : Tid} {f : Frame} {rest l : List Frame} {g' : G}
    {sp : Option Frame} (ht : s.th u = f :: rest) (hu : u < s.g.nextTid)
    (hsp : (sp = none ∧ g'.nextTid = s.g.nextTid) ∨
      (∃ f0, sp = some f0 ∧ g'.nextTid = s.g.nextTid + 1)) :
    total w (applyRes s u rest (g', .go l, sp)) + w f = total w s + toks w l + spCost w sp := by
  have htk : toks w (s.th u) = w f + toks w rest := by rw [ht, toks_cons]
  rcases hsp with ⟨rfl, e⟩ | ⟨f0, rfl, e⟩
  · have h1 : total w (applyRes s u rest (g', .go l, none)) =
        tot w (setTh s.th u (l ++ rest)) s.g.nextTid := by
      show tot w _ g'.nextTid = _
      rw [e]; rfl
    have h2 := tot_lt (w := w) (l ++ rest) (th := s.th) hu
    rw [toks_append] at h2
    rw [h1]; unfold total
    simp only [spCost, Option.map_none, Option.getD_none]
    omega
  · have h1 : total w (applyRes s u rest (g', .go l, some f0)) =
        tot w (setTh (setTh s.th s.g.nextTid [f0]) u (l ++ rest)) (s.g.nextTid + 1) := by
      show tot w _ g'.nextTid = _
      rw [e]; rfl
    have h2 := tot_lt (w := w) (l ++ rest) (th := setTh s.th s.g.nextTid [f0]) (t := u)
      (n := s.g.nextTid + 1) (Nat.lt_succ_of_lt hu)
    have h3 : tot w (setTh s.th s.g.nextTid [f0]) (s.g.nextTid + 1) =
        tot w s.th s.g.nextTid + w f0 := by
      simp only [tot]
      rw [tot_ge _ (Nat.le_refl _), setTh_self, toks_cons, toks_nil, Nat.add_zero]
    rw [setTh_ne _ _ (Nat.ne_of_lt hu), toks_append, h3] at h2
    rw [h1]; unfold total
    simp only [spCost, Option.map_some, Option.getD_some]
    omega

theorem total_unwind {w : Frame → Nat} {s : S} {u : Tid} {f : Frame} {rest : List Frame} {g' : G}
    (ht : s.th u = f :: rest) (hu : u < s.g.nextTid) (e : g'.nextTid = s.g.nextTid) :
    total w (applyRes s u rest (g', .unwind, none)) + w f + toks w rest =
      total w s + toks w (unwound rest) := by
  have htk : toks w (s.th u) = w f + toks w rest := by rw [ht, toks_cons]
  have h1 : total w (applyRes s u rest (g', .unwind, none)) =
      tot w (setTh s.th u (unwound rest)) s.g.nextTid := by
    show tot w _ g'.nextTid = _
    rw [e]; rfl
  have h2 := tot_lt (w := w) (unwound rest) (th := s.th) hu
  rw [h1]; unfold total
  omega

/-- A step of the polling loop: only the top frame of `u` changes. -/
structure Quiet (s s1 : S) (u : Tid) (ok : Bool) : Prop where
  live : s.g.dead = false
  same : vars s1.g = vars s.g
  move : ∃ f f' rest, s.th u = f :: rest ∧ s1.th u = f' :: rest ∧ f.polls = true ∧
    f'.polls = true ∧ ∃ v g', fstep s.g u ok v f = some (g', .go [f'], none)
  others : ∀ x, x ≠ u → s1.th x = s.th x

abbrev Less : Nat × Nat → Nat × Nat → Prop := Prod.Lex (· < ·) (· < ·)

theorem less_trans {a b c : Nat × Nat} (h1 : Less a b) (h2 : Less b c) : Less a c := by
  obtain ⟨a1, a2⟩ := a
  obtain ⟨b1, b2⟩ := b
  obtain ⟨c1, c2⟩ := c
  simp only [Less, Prod.lex_def] at h1 h2 ⊢
  omega

/-- Every step ends the process, is one of the polling loop, or decreases the measure. -/
theorem meas_step {A : S → Lbl → Prop} {s s1 : S} {u : Tid} {ok : Bool} {v : Nat} (hs : ReachA A s)
    (hn : next s (.step u (.go ok v)) = some s1) :
    s1.g.dead = true ∨ (Quiet s s1 u ok ∧ meas s1 = meas s) ∨ Less (meas s1) (meas s) := by
  have hm := move_of_next hn
  cases hm with
  | @go _ f rest _ _ r hd ht hf =>
    obtain ⟨g', nx, sp⟩ := r
    have hu : u < s.g.nextTid := by
      apply Classical.byContradiction
      intro h
      rw [fresh_inv hs u (by omega)] at ht; cases ht
    cases nx with
    | die =>
      refine Or.inl ?_
      show (({ g' with dead := true } : G)).dead = true
      rfl
    | unwind =>
      obtain ⟨rfl, h6⟩ := cost_unwind hf
      rcases fstep_spawn hf with ⟨_, e⟩ | ⟨_, _, _, _, e⟩
      · have h1 := total_unwind (w := Frame.cost) ht hu e
        have h2 := cost_unwound rest
        refine Or.inr (Or.inr (Prod.Lex.left _ _ ?_))
        show total Frame.cost _ < total Frame.cost s
        omega
      · cases e
    | go l =>
      have hsp : (sp = none ∧ g'.nextTid = s.g.nextTid) ∨
          (∃ f0, sp = some f0 ∧ g'.nextTid = s.g.nextTid + 1) := by
        rcases fstep_spawn hf with h | ⟨f0, _, h1, h2, _⟩
        · exact Or.inl h
        · exact Or.inr ⟨f0, h1, h2⟩
      have h1 := total_go (w := Frame.cost) (l := l) ht hu hsp
      have h2 := total_go (w := Frame.laps) (l := l) ht hu hsp
      rcases cost_go hf with ⟨hc, rfl, f', e, hp, hp'⟩ | h | ⟨ha, rfl, hb⟩
      · injection e with e; subst e
        have c1 : ∀ {f : Frame}, f.polls = true → f.cost = 7 ∧ f.laps = 0 := by
          intro f hp
          cases f <;> first | exact ⟨rfl, rfl⟩ | (simp [Frame.polls] at hp; done)
        simp only [toks_cons, toks_nil, spCost, Option.map_none, Option.getD_none, (c1 hp).1,
          (c1 hp).2, (c1 hp').1, (c1 hp').2] at h1 h2
        refine Or.inr (Or.inl ⟨⟨hd, hc, ⟨f, f', rest, ht, by simp [applyRes, setTh], hp, hp', v, g', hf⟩,
          fun x hx => by simp [applyRes, setTh, hx]⟩, ?_⟩)
        show (total Frame.cost _, total Frame.laps _) = (total Frame.cost s, total Frame.laps s)
        rw [show total Frame.cost _ = total Frame.cost s from by omega,
          show total Frame.laps _ = total Frame.laps s from by omega]
      · refine Or.inr (Or.inr (Prod.Lex.left _ _ ?_))
        show total Frame.cost _ < total Frame.cost s
        omega
      · simp only [spCost, Option.map_none, Option.getD_none] at h1 h2
        have e : total Frame.cost (applyRes s u rest (g', .go l, none)) = total Frame.cost s := by
          omega
        refine Or.inr (Or.inr ?_)
        show Less (total Frame.cost _, total Frame.laps _) (total Frame.cost s, total Frame.laps s)
        rw [e]
        exact Prod.Lex.right _ (by omega)

/-! ## The loop comes to its end -/

/-- Steps left in a pass of the loop. -/
def Frame.left : Frame → Nat
  | .sdScan _ todo _ _ => 3 * todo.length
  | .sdKill _ _ todo _ _ => 3 * todo.length + 2
  | .sdScan2 _ _ todo _ _ => 3 * todo.length + 1
  | _ => 0

/-- A pass in which every record of the list is looked at. -/
def inPass (g : G) : Frame → Prop
  | .sdScan _ todo unf unst => (∀ n ∈ todo, n ∈ g.list) ∧ (0 < unf → 0 < unst)
  | .sdKill _ n todo unf unst => n ∈ g.list ∧ (∀ n ∈ todo, n ∈ g.list) ∧ (0 < unf → 0 < unst)
  | .sdScan2 _ n todo unf unst => (∀ n ∈ todo, n ∈ g.list) ∧ (0 < unf → 0 < unst) ∧
      ((g.nodes n).finiD = true ∨ 0 < unst)
  | _ => False

/-- A step of the loop comes nearer to the end of the pass, or begins a new one. -/
theorem poll_left {g g' : G} {t : Tid} {ok : Bool} {v : Nat} {f f' : Frame}
    (h : fstep g t ok v f = some (g', .go [f'], none)) (hp : f.polls = true) (hp' : f'.polls = true) :
    f'.left < f.left ∨ (f.readsClock = true ∧ inPass g f') := by
  cases f <;> first | (simp [Frame.polls] at hp; done) | skip
  all_goals fstep_cases h
  all_goals first
    | (simp [Frame.polls] at hp'; done)
    | (refine Or.inr ⟨rfl, fun _ h => h, fun h => ?_⟩; omega)
    | (left; simp only [Frame.left, List.length_cons]; omega)

/-- With nothing to wait for, and the timeout over, a pass ends the loop. -/
theorem poll_pass {g g' : G} {t : Tid} {ok : Bool} {v : Nat} {f f' : Frame}
    (h : fstep g t ok v f = some (g', .go [f'], none)) (hp' : f'.polls = true)
    (hi : inPass g f) (ha : ∀ n ∈ g.list, awaited g t n = false)
    (hc : f.readsClock = true → ok = true) : f'.left < f.left ∧ inPass g f' := by
  cases f <;> first | (simp [inPass] at hi; done) | skip
  case sdScan my todo unf unst =>
    cases todo with
    | nil =>
      have hok : ok = true := hc rfl
      subst hok
      have h2 := hi.2
      simp only [fstep, cont] at h
      split at h
      · cases h; simp [Frame.polls] at hp'
      · split at h
        · cases h; simp [Frame.polls] at hp'
        · rename_i hu hk
          simp at hk; omega
    | cons n todo =>
      obtain ⟨h1, h2⟩ := hi
      have hn := h1 n List.mem_cons_self
      have ht : ∀ m ∈ todo, m ∈ g.list := fun m hm => h1 m (List.mem_cons_of_mem _ hm)
      have hw := ha n hn
      simp only [fstep, cont] at h
      split at h
      · cases h; exact ⟨by simp only [Frame.left, List.length_cons]; omega, ht, h2⟩
      · rename_i hself
        split at h
        · rename_i happ
          split at h
          · rename_i hfs
            cases h
            refine ⟨by simp only [Frame.left, List.length_cons]; omega, ht, h2, Or.inl ?_⟩
            simpa [awaited, hself, happ, hfs] using hw
          · cases h; exact ⟨by simp only [Frame.left, List.length_cons]; omega, hn, ht, h2⟩
        · cases h; exact ⟨by simp only [Frame.left, List.length_cons]; omega, ht, h2⟩
  case sdKill my n todo unf unst =>
    obtain ⟨h1, h2, h3⟩ := hi
    fstep_cases h
    exact ⟨by simp only [Frame.left]; omega, h2, fun _ => Nat.succ_pos _, Or.inr (Nat.succ_pos _)⟩
  case sdScan2 my n todo unf unst =>
    obtain ⟨h1, h2, h3⟩ := hi
    fstep_cases h
    · exact ⟨by simp only [Frame.left]; omega, h1, h2⟩
    · rename_i hfd
      exact ⟨by simp only [Frame.left]; omega, h1, fun _ => h3.resolve_left hfd⟩

theorem inPass_congr {g g' : G} (h : vars g' = vars g) {f : Frame} (hi : inPass g f) :
    inPass g' f := by
  have h1 : g'.list = g.list := by
    have := congrArg G.list h; exact this
  have h2 : g'.nodes = g.nodes := by
    have := congrArg G.nodes h; exact this
  cases f <;> simp only [inPass, h1, h2] at hi ⊢ <;> exact hi

theorem blocked_congr {s s' : S} (h : vars s'.g = vars s.g) {u : Tid} (ht : s'.th u = s.th u) :
    blocked s' u ↔ blocked s u := by
  have h1 : s'.g.list = s.g.list := by
    have := congrArg G.list h; exact this
  have h2 : s'.g.nodes = s.g.nodes := by
    have := congrArg G.nodes h; exact this
  have h3 : s'.g.lock = s.g.lock := by
    have := congrArg G.lock h; exact this
  have h4 : s'.g.finiProcDone = s.g.finiProcDone := by
    have := congrArg G.finiProcDone h; exact this
  unfold blocked top awaited
  rw [h1, h2, h3, h4, ht]

/-! ## The execution -/

section
variable {σ : Nat → S} {act : Nat → Act} (R : FairRun σ act)
include R

theorem FairRun.none {i : Nat} (h : act i = none) : σ (i + 1) = σ i := by
  have := R.step i
  rw [h] at this; exact this

theorem FairRun.some {i : Nat} {u : Tid} {ok : Bool} {v : Nat} (h : act i = some (u, ok, v)) :
    Orderly (σ i) (.step u (.go ok v)) ∧ next (σ i) (.step u (.go ok v)) = some (σ (i + 1)) := by
  have := R.step i
  rw [h] at this; exact this

theorem FairRun.reach (i : Nat) : ReachA Orderly (σ i) := by
  induction i with
  | zero => exact R.start
  | succ i ih =>
    cases h : act i with
    | none => rw [R.none h]; exact ih
    | some a =>
      obtain ⟨u, ok, v⟩ := a
      exact .next ih (R.some h).1 (R.some h).2

theorem FairRun.dead {i : Nat} (h : (σ i).g.dead = true) {j : Nat} (hj : i ≤ j) : σ j = σ i := by
  induction hj with
  | refl => rfl
  | @step j hj ih =>
    cases ha : act j with
    | none => rw [R.none ha, ih]
    | some a =>
      obtain ⟨u, ok, v⟩ := a
      have := (R.some ha).2
      rw [ih] at this
      simp [next, Libmonitor.Proc.step, h] at this

/-- From some time on there is nothing but the polling loop. -/
theorem FairRun.quiet (hd : ∀ i, (σ i).g.dead = false) :
    ∃ N, ∀ j, N ≤ j → ∀ u ok v, act j = Option.some (u, ok, v) → Quiet (σ j) (σ (j + 1)) u ok := by
  have mono : ∀ {i j}, i ≤ j → meas (σ j) = meas (σ i) ∨ Less (meas (σ j)) (meas (σ i)) := by
    intro i j hj
    induction hj with
    | refl => exact Or.inl rfl
    | @step j hj ih =>
      cases ha : act j with
      | none => rw [R.none ha]; exact ih
      | some a =>
        obtain ⟨u, ok, v⟩ := a
        rcases meas_step (R.reach j) (R.some ha).2 with h | ⟨_, h⟩ | h
        · rw [hd] at h; cases h
        · rw [h]; exact ih
        · right
          rcases ih with e | ih
          · rw [← e]; exact h
          · exact less_trans h ih
  have key : ∀ m, ∀ i, meas (σ i) = m → ∃ N, ∀ j, N ≤ j → ∀ u ok v,
      act j = Option.some (u, ok, v) → Quiet (σ j) (σ (j + 1)) u ok := by
    intro m
    induction m using (Prod.lex Nat.lt_wfRel Nat.lt_wfRel).wf.induction with
    | _ m ih =>
      intro i hi
      by_cases hall : ∀ j, i ≤ j → ∀ u ok v, act j = Option.some (u, ok, v) →
          Quiet (σ j) (σ (j + 1)) u ok
      · exact ⟨i, hall⟩
      · simp only [Classical.not_forall] at hall
        obtain ⟨j, hj, u, ok, v, ha, hq⟩ := hall
        rcases meas_step (R.reach j) (R.some ha).2 with h | ⟨h, _⟩ | h
        · rw [hd] at h; cases h
        · exact absurd h hq
        · refine ih (meas (σ (j + 1))) ?_ (j + 1) rfl
          rw [← hi]
          rcases mono hj with e | h'
          · rw [← e]; exact h
          · exact less_trans h h'
  exact key _ 0 rfl

/-- In the end no thread that is there can go on. -/
theorem FairRun.rest (hd : ∀ i, (σ i).g.dead = false) :
    ∃ N, ∀ j, N ≤ j → ∀ u, (σ j).th u ≠ [] → blocked (σ j) u := by
  obtain ⟨N1, hq⟩ := R.quiet hd
  obtain ⟨N2, hck⟩ := R.clock
  refine ⟨max N1 N2, fun j0 hj0 u hl => Classical.byContradiction fun hb => ?_⟩
  have hN1 : N1 ≤ j0 := Nat.le_trans (Nat.le_max_left ..) hj0
  have hN2 : N2 ≤ j0 := Nat.le_trans (Nat.le_max_right ..) hj0
  -- the variables do not change any more
  have hv : ∀ {j}, j0 ≤ j → vars (σ j).g = vars (σ j0).g := by
    intro j hj
    induction hj with
    | refl => rfl
    | @step j hj ih =>
      cases ha : act j with
      | none => rw [R.none ha]; exact ih
      | some a =>
        obtain ⟨x, ok, v⟩ := a
        exact (hq j (Nat.le_trans hN1 hj) x ok v ha).same.trans ih
  have hone : ∀ {j}, j0 ≤ j → (∀ ok v, act j ≠ Option.some (u, ok, v)) →
      (σ (j + 1)).th u = (σ j).th u := by
    intro j hj hno
    cases ha : act j with
    | none => rw [R.none ha]
    | some a =>
      obtain ⟨x, ok, v⟩ := a
      exact (hq j (Nat.le_trans hN1 hj) x ok v ha).others u (by
        intro e; subst e; exact hno ok v ha)
  have hkeep : ∀ {i j}, j0 ≤ i → i ≤ j →
      (∀ k, i ≤ k → k < j → ∀ ok v, act k ≠ Option.some (u, ok, v)) → (σ j).th u = (σ i).th u := by
    intro i j hi hj
    induction hj with
    | refl => intro _; rfl
    | @step j hj ih =>
      intro hno
      rw [hone (Nat.le_trans hi hj) (hno j hj (Nat.lt_succ_self j)),
        ih (fun k h1 h2 => hno k h1 (Nat.lt_succ_of_lt h2))]
  -- the next step of `u`
  have hnext : ∀ {i}, j0 ≤ i → (∀ j, i ≤ j → (σ j).th u ≠ [] ∧ ¬ blocked (σ j) u) →
      ∃ j, i ≤ j ∧ (σ j).th u = (σ i).th u ∧ ∃ ok v, act j = Option.some (u, ok, v) := by
    intro i hi hgo
    obtain ⟨j, hj, ok, v, ha⟩ := R.fair i u (fun j hj =>
      goes_on (hd j) (hgo j hj).1 (hgo j hj).2 true 0)
    induction j using Nat.strongRecOn generalizing ok v with
    | _ j ih =>
      by_cases hex : ∃ k, i ≤ k ∧ k < j ∧ ∃ ok v, act k = Option.some (u, ok, v)
      · obtain ⟨k, h1, h2, ok', v', h3⟩ := hex
        exact ih k h2 h1 ok' v' h3
      · refine ⟨j, hj, hkeep hi hj (fun k h1 h2 ok' v' h3 => hex ⟨k, h1, h2, ok', v', h3⟩), ok, v, ha⟩
  obtain ⟨f, rest, ht⟩ := List.exists_cons_of_ne_nil hl
  by_cases hp : f.polls = true
  · have ha : ∀ n ∈ (σ j0).g.list, awaited (σ j0).g u n = false := by
      intro n hn
      cases hx : awaited (σ j0).g u n with
      | false => rfl
      | true => exact absurd (Or.inr (Or.inr ⟨⟨f, by rw [ht]; rfl, hp⟩, n, hn, hx⟩)) hb
    have ha' : ∀ {j}, j0 ≤ j → ∀ n ∈ (σ j).g.list, awaited (σ j).g u n = false := by
      intro j hj n hn
      have h1 : (σ j).g.list = (σ j0).g.list := by
        have := congrArg G.list (hv hj); exact this
      have h2 : (σ j).g.nodes = (σ j0).g.nodes := by
        have := congrArg G.nodes (hv hj); exact this
      have := ha n (h1 ▸ hn)
      unfold awaited at this ⊢
      rw [h2]; exact this
    -- `u` stays in the loop
    have hin : ∀ {j}, j0 ≤ j → ∃ f, (σ j).th u = f :: rest ∧ f.polls = true := by
      intro j hj
      induction hj with
      | refl => exact ⟨f, ht, hp⟩
      | @step j hj ih =>
        by_cases hs : ∃ ok v, act j = Option.some (u, ok, v)
        · obtain ⟨ok, v, has⟩ := hs
          obtain ⟨a, a', r, e1, e2, _, e4, _⟩ := (hq j (Nat.le_trans hN1 hj) u ok v has).move
          obtain ⟨b, e5, _⟩ := ih
          rw [e5] at e1; injection e1 with _ e1; subst e1
          exact ⟨a', e2, e4⟩
        · rw [hone hj (fun ok v e => hs ⟨ok, v, e⟩)]; exact ih
    have hfree : ∀ {i}, j0 ≤ i → ∀ j, i ≤ j → (σ j).th u ≠ [] ∧ ¬ blocked (σ j) u := by
      intro i hi j hj
      have hij := Nat.le_trans hi hj
      obtain ⟨b, e, hbp⟩ := hin hij
      refine ⟨by rw [e]; simp, ?_⟩
      have topb : ∀ {p : Frame → Bool}, top (σ j) u p → p b = true := by
        rintro p ⟨x, hx, hpx⟩
        rw [e] at hx; injection hx with hx; subst hx; exact hpx
      rintro (⟨h, _⟩ | ⟨h, _⟩ | ⟨_, n, hn, hw⟩)
      · have := topb h
        cases b <;> simp [Frame.polls, Frame.wantsLock] at hbp this
      · have := topb h
        cases b <;> simp [Frame.polls, Frame.isEpWait] at hbp this
      · rw [ha' hij n hn] at hw; cases hw
    have hadv : ∀ {i a}, j0 ≤ i → (σ i).th u = a :: rest → ∃ j a' ok v g', i ≤ j ∧
        (σ (j + 1)).th u = a' :: rest ∧ a.polls = true ∧ a'.polls = true ∧
        act j = Option.some (u, ok, v) ∧ (σ j).th u = a :: rest ∧
        fstep (σ j).g u ok v a = Option.some (g', .go [a'], Option.none) := by
      intro i a hi hta
      obtain ⟨j, hj, hth, ok, v, hact⟩ := hnext hi (hfree hi)
      obtain ⟨b, b', r, e1, e2, e3, e4, v', g', e5⟩ :=
        (hq j (Nat.le_trans hN1 (Nat.le_trans hi hj)) u ok v hact).move
      rw [hth, hta] at e1
      injection e1 with e1 e1'; subst e1; subst e1'
      refine ⟨j, b', ok, v, g', hj, e2, e3, e4, hact, hth.trans hta, ?_⟩
      revert e5
      cases a <;> first
        | (simp [Frame.polls] at e3; done)
        | exact fun h => h
    have hclock : ∀ {j a ok v}, j0 ≤ j → (σ j).th u = a :: rest → act j = Option.some (u, ok, v) →
        a.readsClock = true → ok = true := fun {j a ok v} hj e hact hr =>
      hck j (Nat.le_trans hN2 hj) u ok v hact ⟨a, by rw [e]; rfl, hr⟩
    -- a whole pass ends the loop
    have hpass : ∀ k i a, a.left = k → j0 ≤ i → (σ i).th u = a :: rest → inPass (σ i).g a →
        False := by
      intro k
      induction k using Nat.strongRecOn with
      | _ k ih =>
        intro i a hk hi hta hin
        obtain ⟨j, a', ok, v, g', hj, e2, e3, e4, hact, hthj, hfs⟩ := hadv hi hta
        have hij := Nat.le_trans hi hj
        have hvv : vars (σ j).g = vars (σ i).g := (hv hij).trans (hv hi).symm
        obtain ⟨h1, h2⟩ := poll_pass hfs e4 (inPass_congr hvv hin) (ha' hij) (hclock hij hthj hact)
        refine ih a'.left (hk ▸ h1) (j + 1) a' rfl (Nat.le_succ_of_le hij) e2 (inPass_congr ?_ h2)
        exact (hv (Nat.le_succ_of_le hij)).trans (hv hij).symm
    -- the pass under way comes to its end
    have hfirst : ∀ k i a, a.left = k → j0 ≤ i → (σ i).th u = a :: rest → False := by
      intro k
      induction k using Nat.strongRecOn with
      | _ k ih =>
        intro i a hk hi hta
        obtain ⟨j, a', ok, v, g', hj, e2, e3, e4, hact, hthj, hfs⟩ := hadv hi hta
        have hij := Nat.le_trans hi hj
        rcases poll_left hfs e3 e4 with h | ⟨_, h⟩
        · exact ih a'.left (hk ▸ h) (j + 1) a' rfl (Nat.le_succ_of_le hij) e2
        · exact hpass _ (j + 1) a' rfl (Nat.le_succ_of_le hij) e2
            (inPass_congr ((hv (Nat.le_succ_of_le hij)).trans (hv hij).symm) h)
    exact hfirst _ j0 f rfl (Nat.le_refl _) ht
  · -- `u` never moves, although it could
    have hstay : ∀ {j}, j0 ≤ j → (σ j).th u = f :: rest := by
      intro j hj
      induction hj with
      | refl => exact ht
      | @step j hj ih =>
        rw [hone hj, ih]
        intro ok v hact
        obtain ⟨b, b', r, e1, _, e3, _⟩ := (hq j (Nat.le_trans hN1 hj) u ok v hact).move
        rw [ih] at e1; injection e1 with e1; subst e1
        exact hp e3
    obtain ⟨j, hj, hth, ok, v, hact⟩ := hnext (Nat.le_refl _) (fun j hj =>
      ⟨by rw [hstay hj]; simp, fun h => hb ((blocked_congr (hv hj) ((hstay hj).trans ht.symm)).1 h)⟩)
    obtain ⟨b, b', r, e1, _, e3, _⟩ := (hq j (Nat.le_trans hN1 hj) u ok v hact).move
    rw [hstay hj] at e1; injection e1 with e1; subst e1
    exact hp e3

end

end Libmonitor.Proc
