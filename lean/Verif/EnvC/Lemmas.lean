import Verif.EnvC.Spec
import Verif.Fork.Lemmas

/-!
# Invariants for C82
-/

namespace Libmonitor.EnvC

open Fork (Str Ptr contains ldPreload initEnvironSize)

/-- The strings that are kept. -/
def W (l : List Str) : List Str := l.filter fun x => !contains ldPreload x

theorem kept_W : ∀ l, Kept l (W l)
  | [] => .nil
  | x :: l => by
    by_cases h : contains ldPreload x = true
    · have e : W (x :: l) = W l := by simp [W, h]
      rw [e]; exact .drop ((Fork.contains_iff _ _).1 h) (kept_W l)
    · have e : W (x :: l) = x :: W l := by simp [W, h]
      rw [e]; exact .keep (fun k => h ((Fork.contains_iff _ _).2 k)) (kept_W l)

theorem W_append (a b : List Str) : W (a ++ b) = W a ++ W b := by simp [W]

theorem W_le (a : List Str) : (W a).length ≤ a.length := List.length_filter_le ..

/-- A string that may get into an array. -/
def Src (s : S) (x : Str) : Prop :=
  contains ldPreload x = false ∧ ∃ d e, Ev.enter d e ∈ s.tr ∧ x ∈ e

/-- The array of the call is its own. -/
def OK (s : S) (c : Call) : Prop := Quiet c s.tr ∨ large (s.env c) = true

/-- The array holds these strings and NULL. -/
def Full (s : S) (c : Call) (own : Bool) : Prop :=
  ∀ j, j ≤ (W (s.env c)).length → s.cell c own j = (W (s.env c))[j]?

def Good (s : S) (c : Call) : Pc → Prop
  | .none | .count | .done => True
  | .copy own rest n => own = large (s.env c) ∧ ∃ pre, s.env c = pre ++ rest ∧ n = (W pre).length ∧
      (OK s c → ∀ i, i < n → s.cell c own i = (W pre)[i]?)
  | .term own n => own = large (s.env c) ∧ n = (W (s.env c)).length ∧
      (OK s c → ∀ i, i < n → s.cell c own i = (W (s.env c))[i]?)
  | .cnt own i => own = large (s.env c) ∧ i < s.cells c own ∧
      (OK s c → i ≤ (W (s.env c)).length ∧ Full s c own)
  | .grab own i acc => own = large (s.env c) ∧ i < s.cells c own ∧ (∀ x ∈ acc, Src s x) ∧
      (OK s c → i ≤ (W (s.env c)).length ∧ acc = (W (s.env c)).drop i ∧ Full s c own)
  | .ready acc => (∀ x ∈ acc, Src s x) ∧ (OK s c → acc = W (s.env c))

structure Inv (s : S) : Prop where
  arr : ∀ i x, s.arr i = some x → Src s x
  own : ∀ c i x, s.own c i = some x → Src s x
  arrEnd : ∀ i, initEnvironSize ≤ i + 1 → s.arr i = none
  ownEnd : ∀ c i, (s.env c).length + 1 ≤ i → s.own c i = none
  ent : ∀ c e, Ev.enter c e ∈ s.tr → c < s.nextC ∧ s.env c = e
  pcs : ∀ c, s.pc c ≠ .none → Ev.enter c (s.env c) ∈ s.tr
  fresh : ∀ c, s.nextC ≤ c → ∀ i, s.own c i = none
  good : ∀ c, Good s c (s.pc c)
  bad : ∀ c, Ev.bad c ∉ s.tr
  live : s.dead = false → ∀ c l, Ev.exec c l ∉ s.tr
  ex : ∀ c l, Ev.exec c l ∈ s.tr → Ev.enter c (s.env c) ∈ s.tr ∧ (∀ x ∈ l, Src s x) ∧
    (OK s c → l = W (s.env c))

theorem good_frame {s s' : S} {d : Call} {p : Pc} (he : s'.env d = s.env d)
    (hs : ∀ x, Src s x → Src s' x)
    (ho : OK s' d → OK s d ∧ ∀ own, own = large (s.env d) → ∀ i, s'.cell d own i = s.cell d own i)
    (h : Good s d p) : Good s' d p := by
  have hc : ∀ own, s'.cells d own = s.cells d own := fun own => by simp [S.cells, he]
  have hf : OK s' d → ∀ own, own = large (s.env d) → Full s d own → Full s' d own := by
    intro k own e hf j hj
    rw [he] at hj ⊢
    rw [(ho k).2 own e]; exact hf j hj
  cases p with
  | none | count | done => trivial
  | copy own rest n =>
    obtain ⟨h1, pre, h2, h3, h4⟩ := h
    refine ⟨by rw [he]; exact h1, pre, by rw [he]; exact h2, h3, fun k i hi => ?_⟩
    rw [(ho k).2 own h1]; exact h4 (ho k).1 i hi
  | term own n =>
    obtain ⟨h1, h3, h4⟩ := h
    refine ⟨by rw [he]; exact h1, by rw [he]; exact h3, fun k i hi => ?_⟩
    rw [(ho k).2 own h1, he]; exact h4 (ho k).1 i hi
  | cnt own i =>
    obtain ⟨h1, h3, h4⟩ := h
    refine ⟨by rw [he]; exact h1, by rw [hc]; exact h3, fun k => ?_⟩
    obtain ⟨h5, h6⟩ := h4 (ho k).1
    exact ⟨by rw [he]; exact h5, hf k own h1 h6⟩
  | grab own i acc =>
    obtain ⟨h1, h3, h7, h4⟩ := h
    refine ⟨by rw [he]; exact h1, by rw [hc]; exact h3, fun x hx => hs x (h7 x hx), fun k => ?_⟩
    obtain ⟨h5, h8, h6⟩ := h4 (ho k).1
    exact ⟨by rw [he]; exact h5, by rw [he]; exact h8, hf k own h1 h6⟩
  | ready acc =>
    obtain ⟨h1, h2⟩ := h
    exact ⟨fun x hx => hs x (h1 x hx), fun k => by rw [he]; exact h2 (ho k).1⟩

/-- Only the frames change. -/
theorem inv_th {s : S} (h : Inv s) (th : Tid → List Slot) : Inv { s with th := th } := by
  obtain ⟨h1, h2, h3, h4, h5, h6, h7, h8, h9, h10, h11⟩ := h
  exact ⟨h1, h2, h3, h4, h5, h6, h7, h8, h9, h10, h11⟩

/-- An event that is no store, no beginning and no program. -/
def Plain (e : Ev) : Prop :=
  (∀ c l, e ≠ .enter c l) ∧ (∀ c i v, e ≠ .store c i v) ∧ (∀ c l, e ≠ .exec c l) ∧ ∀ c, e ≠ .bad c

theorem quiet_plain {e : Ev} (h : Plain e) (c : Call) (tr : List Ev) :
    Quiet c (e :: tr) ↔ Quiet c tr := by
  obtain ⟨h1, h2, -, -⟩ := h
  cases e <;> simp_all [Quiet]

theorem inv_log {s : S} (h : Inv s) {e : Ev} (he : Plain e) : Inv (s.log e) := by
  have hs : ∀ x, Src s x → Src (s.log e) x := fun x ⟨k, d, l, hd, hx⟩ =>
    ⟨k, d, l, by simp [S.log, hd], hx⟩
  have hq : ∀ c, OK (s.log e) c → OK s c := fun c k => k.imp (quiet_plain he c _).1 id
  have hm : ∀ {x}, x ∈ (s.log e).tr → x ≠ e → x ∈ s.tr := by
    intro x hx hne
    rcases List.mem_cons.1 hx with k | k
    · exact absurd k hne
    · exact k
  refine ⟨fun i x k => hs x (h.arr i x k), fun c i x k => hs x (h.own c i x k), h.arrEnd, h.ownEnd,
    fun c l k => h.ent c l (hm k (fun e' => he.1 c l e'.symm)),
    fun c k => List.mem_cons_of_mem _ (h.pcs c k), h.fresh, fun c => ?_,
    fun c k => h.bad c (hm k (fun e' => he.2.2.2 c e'.symm)),
    fun hd c l k => h.live hd c l (hm k (fun e' => he.2.2.1 c l e'.symm)), ?_⟩
  · exact good_frame (s := s) rfl hs (fun k => ⟨hq c k, fun _ _ _ => rfl⟩) (h.good c)
  · intro c l k
    obtain ⟨k1, k2, k3⟩ := h.ex c l (hm k (fun e' => he.2.2.1 c l e'.symm))
    exact ⟨List.mem_cons_of_mem _ k1, fun x hx => hs x (k2 x hx), fun ok => k3 (hq c ok)⟩

theorem inv_goto {s : S} (h : Inv s) {c : Call} {p : Pc} (hp : s.pc c ≠ .none) (hg : Good s c p) :
    Inv (s.goto c p) := by
  refine ⟨h.arr, h.own, h.arrEnd, h.ownEnd, h.ent, fun d k => ?_, h.fresh, fun d => ?_, h.bad, h.live, h.ex⟩
  · by_cases e : d = c
    · subst e; exact h.pcs d hp
    · exact h.pcs d (by simpa [S.goto, e] using k)
  · by_cases e : d = c
    · subst e
      have : (s.goto d p).pc d = p := by simp [S.goto]
      rw [this]
      exact good_frame rfl (fun _ k => k) (fun k => ⟨k, fun _ _ _ => rfl⟩) hg
    · have : (s.goto c p).pc d = s.pc d := by simp [S.goto, e]
      rw [this]
      exact good_frame rfl (fun _ k => k) (fun k => ⟨k, fun _ _ _ => rfl⟩) (h.good d)

theorem put_env {s : S} {c : Call} {own : Bool} {i : Nat} {v : Ptr} : (s.put c own i v).env = s.env := by
  cases own <;> rfl

theorem put_pc {s : S} {c : Call} {own : Bool} {i : Nat} {v : Ptr} : (s.put c own i v).pc = s.pc := by
  cases own <;> rfl

theorem put_cell {s : S} {c : Call} {own : Bool} {i j : Nat} {v : Ptr} :
    (s.put c own i v).cell c own j = if j = i then v else s.cell c own j := by
  cases own <;> simp [S.put, S.cell, S.log]

theorem put_cells {s : S} {c d : Call} {own o : Bool} {i : Nat} {v : Ptr} :
    (s.put c own i v).cells d o = s.cells d o := by
  cases own <;> rfl

theorem put_ok {s : S} {c : Call} {own : Bool} {i : Nat} {v : Ptr} :
    OK (s.put c own i v) c ↔ OK s c := by
  cases own <;> simp [S.put, OK, S.log, Quiet]

theorem put_src {s : S} {c : Call} {own : Bool} {i : Nat} {v : Ptr} {x : Str} (h : Src s x) :
    Src (s.put c own i v) x := by
  obtain ⟨h1, d, e, h2, h3⟩ := h
  refine ⟨h1, d, e, ?_, h3⟩
  cases own
  · exact List.mem_cons_of_mem _ h2
  · exact h2

/-- A store, then the call goes on. -/
theorem inv_put {s : S} (h : Inv s) {c : Call} {own : Bool} {i : Nat} {v : Ptr} {p : Pc}
    (hd : s.dead = false) (hpc : s.pc c ≠ .none) (ho : own = large (s.env c))
    (hv : ∀ x, v = some x → Src s x)
    (hi : i < (s.env c).length + 1) (hp : Good (s.put c own i v) c p) :
    Inv ((s.put c own i v).goto c p) := by
  have hc : c < s.nextC := (h.ent c _ (h.pcs c hpc)).1
  have hother : ∀ d, d ≠ c → Good (s.put c own i v) d (s.pc d) := by
    intro d hd
    refine good_frame (by rw [put_env]) (fun x => put_src) (fun k => ?_) (h.good d)
    cases own with
    | true =>
      refine ⟨k, fun o _ j => ?_⟩
      cases o <;> simp [S.put, S.cell, hd]
    | false =>
      rcases k with k | k
      · exact absurd k.1.symm hd
      · refine ⟨.inr k, fun o e j => ?_⟩
        rw [e, show large (s.env d) = true from k]; rfl
  have hg : ∀ d, Good ((s.put c own i v).goto c p) d (((s.put c own i v).goto c p).pc d) := by
    intro d
    by_cases e : d = c
    · subst e
      have : ((s.put d own i v).goto d p).pc d = p := by simp [S.goto]
      rw [this]
      exact good_frame rfl (fun _ k => k) (fun k => ⟨k, fun _ _ _ => rfl⟩) hp
    · have : ((s.put c own i v).goto c p).pc d = s.pc d := by simp [S.goto, e, put_pc]
      rw [this]
      exact good_frame rfl (fun _ k => k) (fun k => ⟨k, fun _ _ _ => rfl⟩) (hother d e)
  cases own with
  | true =>
    refine ⟨h.arr, ?_, h.arrEnd, ?_, h.ent, ?_, ?_, hg, h.bad, h.live, h.ex⟩
    · intro d j x k
      simp only [S.put, S.goto, if_true] at k
      split at k
      · exact hv x k
      · exact h.own d j x k
    · intro d j k
      simp only [S.put, S.goto, if_true] at k ⊢
      split
      · rename_i e
        obtain ⟨rfl, rfl⟩ := e
        omega
      · exact h.ownEnd d j k
    · intro d k
      by_cases e : d = c
      · subst e; exact h.pcs d hpc
      · exact h.pcs d (by simpa [S.goto, S.put, e] using k)
    · intro d k j
      simp only [S.put, S.goto, if_true] at k ⊢
      split
      · rename_i e; rw [e.1] at k; exact absurd hc (Nat.not_lt.2 k)
      · exact h.fresh d k j
  | false =>
    have hl : (s.env c).length + 2 ≤ initEnvironSize := by
      have := ho.symm
      simp only [large, decide_eq_false_iff_not] at this
      omega
    have hs : ∀ x, Src s x → Src ((s.put c false i v).goto c p) x := fun x k => put_src k
    have hm : ∀ {e}, e ∈ ((s.put c false i v).goto c p).tr → (∀ c i v, e ≠ .store c i v) → e ∈ s.tr := by
      intro e hx hne
      rcases List.mem_cons.1 hx with k | k
      · exact absurd k (hne _ _ _)
      · exact k
    refine ⟨?_, ?_, ?_, h.ownEnd, ?_, ?_, h.fresh, hg, ?_, ?_, ?_⟩
    · intro j x k
      simp only [S.put, S.goto, S.log] at k
      apply hs
      by_cases e : j = i
      · rw [if_neg (by simp)] at k
        exact hv x (by simpa [e] using k)
      · exact h.arr j x (by simpa [e] using k)
    · intro d j x k; exact hs x (h.own d j x k)
    · intro j k
      show (if j = i then v else s.arr j) = none
      rw [if_neg (by omega)]; exact h.arrEnd j k
    · intro d e k; exact h.ent d e (hm k (by simp))
    · intro d k
      refine List.mem_cons_of_mem _ ?_
      by_cases e : d = c
      · subst e; exact h.pcs d hpc
      · exact h.pcs d (by simpa [S.goto, S.put, e, S.log] using k)
    · intro d k; exact h.bad d (hm k (by simp))
    · intro _ d l k; exact h.live hd d l (hm k (by simp))
    · intro d l k; exact absurd (hm k (by simp)) (h.live hd d l)

theorem large_cells {s : S} {c : Call} {own : Bool} (ho : own = large (s.env c)) :
    (s.env c).length + 2 ≤ s.cells c own := by
  subst ho
  unfold S.cells
  split
  · omega
  · rename_i k
    simp only [large, decide_eq_true_eq] at k
    omega

theorem cell_last {s : S} (h : Inv s) {c : Call} {own : Bool} {i : Nat}
    (hi : s.cells c own ≤ i + 1) : s.cell c own i = none := by
  cases own with
  | true => exact h.ownEnd c i (by simp [S.cells] at hi; omega)
  | false => exact h.arrEnd i (by simpa [S.cells] using hi)

theorem cell_src {s : S} (h : Inv s) {c : Call} {own : Bool} {i : Nat} {x : Str}
    (k : s.cell c own i = some x) : Src s x := by
  cases own with
  | true => exact h.own c i x k
  | false => exact h.arr i x k

theorem inv_die {s : S} (h : Inv s) {e : Ev} (he : Plain e) : Inv (s.die e) := by
  obtain ⟨h1, h2, h3, h4, h5, h6, h7, h8, h9, h10, h11⟩ := inv_log h he
  exact ⟨h1, h2, h3, h4, h5, h6, h7, h8, h9, fun k => by simp [S.die] at k, h11⟩

theorem inv_cstep {s s' : S} (h : Inv s) (hd : s.dead = false) {t : Tid} {c : Call} {rest : List Slot}
    {ok : Bool} (hn : cstep s t c rest ok (s.pc c) = some s') : Inv s' := by
  have hg := h.good c
  cases hp : s.pc c with
  | none => rw [hp] at hn; simp [cstep] at hn
  | done => rw [hp] at hn; simp [cstep] at hn
  | count =>
    have hne : s.pc c ≠ .none := by rw [hp]; simp
    rw [hp] at hn
    simp only [cstep] at hn
    split at hn
    · rename_i hl
      split at hn
      · cases hn; exact inv_goto h hne ⟨hl.symm, [], rfl, rfl, by simp⟩
      · cases hn; exact inv_die h (by simp [Plain])
    · rename_i hl
      cases hn; exact inv_goto h hne ⟨by simpa using hl, [], rfl, rfl, by simp⟩
  | copy own l n =>
    have hne : s.pc c ≠ .none := by rw [hp]; simp
    rw [hp] at hn hg
    obtain ⟨h1, pre, h2, h3, h4⟩ := hg
    have hw := W_le pre
    have hlen := congrArg List.length h2
    rw [List.length_append] at hlen
    have hcl := large_cells h1
    cases l with
    | nil =>
      cases hn
      rw [List.append_nil] at h2
      rw [← h2] at h3 h4
      exact inv_goto h hne ⟨h1, h3, h4⟩
    | cons x l =>
      simp only [cstep] at hn
      split at hn
      · rename_i hx
        cases hn
        have e : W (pre ++ [x]) = W pre := by simp [W, hx]
        exact inv_goto h hne ⟨h1, pre ++ [x], by simp [h2], by rw [e, h3], by rw [e]; exact h4⟩
      · rename_i hx
        have e : W (pre ++ [x]) = W pre ++ [x] := by simp [W, hx]
        simp only [List.length_cons] at hlen
        rw [if_pos (by omega)] at hn
        cases hn
        refine inv_put h hd hne h1 ?_ (by omega) ?_
        · rintro y ⟨⟩
          exact ⟨by simpa using hx, c, s.env c, h.pcs c hne, by rw [h2]; simp⟩
        · refine ⟨by rw [put_env]; exact h1, pre ++ [x], by rw [put_env]; simp [h2], by rw [e, h3]; simp, ?_⟩
          intro k i hi
          rw [put_cell, e]
          by_cases ei : i = n
          · rw [if_pos ei, ei, h3]; simp
          · rw [if_neg ei, h4 (put_ok.1 k) i (by omega), List.getElem?_append_left (by omega)]
  | term own n =>
    have hne : s.pc c ≠ .none := by rw [hp]; simp
    rw [hp] at hn hg
    obtain ⟨h1, h3, h4⟩ := hg
    have hw := W_le (s.env c)
    have hcl := large_cells h1
    simp only [cstep] at hn
    rw [if_pos (by omega)] at hn
    cases hn
    refine inv_put h hd hne h1 (by simp) (by omega) ⟨by rw [put_env]; exact h1, by rw [put_cells]; omega, ?_⟩
    intro k
    refine ⟨Nat.zero_le _, fun j hj => ?_⟩
    rw [put_env] at hj ⊢
    rw [put_cell]
    by_cases ej : j = n
    · rw [if_pos ej, ej, h3]; simp
    · rw [if_neg ej]; exact h4 (put_ok.1 k) j (by omega)
  | cnt own i =>
    have hne : s.pc c ≠ .none := by rw [hp]; simp
    rw [hp] at hn hg
    obtain ⟨h1, h3, h4⟩ := hg
    simp only [cstep, if_pos h3] at hn
    split at hn
    · rename_i hx
      cases hn
      refine inv_goto h hne ⟨h1, h3, by simp, fun k => ?_⟩
      obtain ⟨h5, h6⟩ := h4 k
      have := h6 i h5
      rw [hx] at this
      have hge := List.getElem?_eq_none_iff.1 this.symm
      exact ⟨h5, (List.drop_eq_nil_of_le hge).symm, h6⟩
    · rename_i x hx
      cases hn
      have hi : i + 1 < s.cells c own := by
        rcases Nat.lt_or_ge (i + 1) (s.cells c own) with k | k
        · exact k
        · rw [cell_last h k] at hx; cases hx
      refine inv_goto h hne ⟨h1, hi, fun k => ?_⟩
      obtain ⟨h5, h6⟩ := h4 k
      refine ⟨?_, h6⟩
      have := h6 i h5
      rw [hx] at this
      obtain ⟨hlt, -⟩ := List.getElem?_eq_some_iff.1 this.symm
      omega
  | grab own i acc =>
    have hne : s.pc c ≠ .none := by rw [hp]; simp
    rw [hp] at hn hg
    obtain ⟨h1, h3, h7, h4⟩ := hg
    cases i with
    | zero =>
      cases hn
      exact inv_goto h hne ⟨h7, fun k => by simpa using (h4 k).2.1⟩
    | succ i =>
      simp only [cstep] at hn
      rw [if_pos (by omega)] at hn
      split at hn
      · cases hn
        exact inv_th (inv_goto (inv_log h (by simp [Plain])) hne (p := .done) trivial) _
      · rename_i x hx
        cases hn
        refine inv_goto h hne ⟨h1, by omega, ?_, fun k => ?_⟩
        · intro y hy
          rcases List.mem_cons.1 hy with rfl | hy
          · exact cell_src h hx
          · exact h7 y hy
        · obtain ⟨h5, h8, h6⟩ := h4 k
          refine ⟨by omega, ?_, h6⟩
          have := h6 i (by omega)
          rw [hx] at this
          obtain ⟨hlt, he⟩ := List.getElem?_eq_some_iff.1 this.symm
          rw [h8, List.drop_eq_getElem_cons hlt, he]
  | ready acc =>
    have hne : s.pc c ≠ .none := by rw [hp]; simp
    rw [hp] at hn hg
    obtain ⟨h7, h4⟩ := hg
    simp only [cstep] at hn
    split at hn
    · cases hn
      have hs : ∀ x, Src s x → Src (s.die (.exec c acc)) x := fun x ⟨k, d, l, hd, hx⟩ =>
        ⟨k, d, l, List.mem_cons_of_mem _ hd, hx⟩
      have hm : ∀ {e}, e ∈ (s.die (.exec c acc)).tr → e ≠ .exec c acc → e ∈ s.tr := by
        intro e hx hne
        rcases List.mem_cons.1 hx with k | k
        · exact absurd k hne
        · exact k
      refine ⟨fun i x k => hs x (h.arr i x k), fun d i x k => hs x (h.own d i x k), h.arrEnd, h.ownEnd,
        fun d l k => h.ent d l (hm k (by simp)), fun d k => List.mem_cons_of_mem _ (h.pcs d k), h.fresh,
        fun d => ?_, fun d k => h.bad d (hm k (by simp)), fun k => by simp [S.die] at k, ?_⟩
      · exact good_frame (s := s) rfl hs (fun k => ⟨k, fun _ _ _ => rfl⟩) (h.good d)
      · intro d l k
        rcases List.mem_cons.1 k with k | k
        · cases k
          exact ⟨List.mem_cons_of_mem _ (h.pcs c hne), fun x hx => hs x (h7 x hx), h4⟩
        · exact absurd k (h.live hd d l)
    · cases hn
      exact inv_th (inv_goto (inv_log h (by simp [Plain])) hne (p := .done) trivial) _

theorem inv_call {s : S} (h : Inv s) (hd : s.dead = false) (t : Tid) (env : List Str) (l : List Slot) :
    Inv { (((s.log (.enter s.nextC env)).goto s.nextC .count).setTh t l) with
          nextC := s.nextC + 1, env := fun d => if d = s.nextC then env else s.env d } := by
  have hs : ∀ x, Src s x → Src { (((s.log (.enter s.nextC env)).goto s.nextC .count).setTh t l) with
      nextC := s.nextC + 1, env := fun d => if d = s.nextC then env else s.env d } x :=
    fun x ⟨k, d, e, hd, hx⟩ => ⟨k, d, e, List.mem_cons_of_mem _ hd, hx⟩
  refine ⟨fun i x k => hs x (h.arr i x k), fun d i x k => hs x (h.own d i x k), h.arrEnd, ?_, ?_, ?_,
    fun d k => h.fresh d (Nat.le_of_succ_le k), ?_, ?_, ?_, ?_⟩
  · intro d i k
    by_cases e : d = s.nextC
    · exact h.fresh d (Nat.le_of_eq e.symm) i
    · exact h.ownEnd d i (by simpa [e] using k)
  · intro d e k
    rcases List.mem_cons.1 k with k | k
    · cases k; exact ⟨Nat.lt_succ_self _, by simp⟩
    · obtain ⟨k1, k2⟩ := h.ent d e k
      exact ⟨Nat.lt_succ_of_lt k1, by simpa [Nat.ne_of_lt k1] using k2⟩
  · intro d k
    by_cases e : d = s.nextC
    · subst e; simp [S.setTh, S.goto, S.log]
    · have := h.pcs d (by simpa [S.setTh, S.goto, S.log, e] using k)
      exact List.mem_cons_of_mem _ (by simpa [e] using this)
  · intro d
    by_cases e : d = s.nextC
    · subst e; simp [S.setTh, S.goto, S.log, Good]
    · simp only [S.setTh, S.goto, S.log, e, if_false]
      refine good_frame (by simp [e]) hs (fun k => ⟨?_, fun o _ _ => by cases o <;> rfl⟩) (h.good d)
      rcases k with k | k
      · rcases k with k | k
        · exact absurd k.symm e
        · exact .inl k
      · exact .inr (by simpa [e] using k)
  · intro d k
    rcases List.mem_cons.1 k with k | k
    · cases k
    · exact h.bad d k
  · intro _ d m k
    rcases List.mem_cons.1 k with k | k
    · cases k
    · exact h.live hd d m k
  · intro d m k
    rcases List.mem_cons.1 k with k | k
    · cases k
    · exact absurd k (h.live hd d m)

theorem inv_init : Inv {} := by
  constructor <;> simp [Good]

theorem inv {s : S} (hs : Reach s) : Inv s := by
  induction hs with
  | init => exact inv_init
  | @next s s' l _ hn ih =>
    unfold next at hn
    split at hn
    · cases hn
    · rename_i hd
      have hd : s.dead = false := by simpa using hd
      cases l with
      | go t ok =>
        simp only at hn
        split at hn
        · exact inv_cstep ih hd hn
        · cases hn; exact inv_th ih _
        · cases hn
      | call t env =>
        simp only at hn
        split at hn
        · cases hn; exact inv_call ih hd t env _
        · cases hn
      | interrupt t =>
        simp only at hn
        split at hn
        · cases hn
        · cases hn; exact inv_th ih _
      | unwind t n =>
        simp only at hn
        split at hn
        · cases hn; exact inv_th ih _
        · cases hn
      | fork t =>
        simp only at hn
        split at hn
        · cases hn; exact inv_th (inv_log ih (by simp [Plain])) _
        · cases hn

end Libmonitor.EnvC
