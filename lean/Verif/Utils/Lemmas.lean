import Verif.Utils.Model
import Verif.Utils.Spec

namespace Libmonitor.Utils

/-! ## decimal text -/

theorem dec_eq_toDigits (n : Nat) : dec n = Nat.toDigits 10 n := by
  induction n using dec.induct with
  | case1 n h =>
    rw [dec, dif_pos h, Nat.toDigits_of_lt_base h]
    have : ∀ m < 10, [digit m] = [m.digitChar] := by decide
    exact this n h
  | case2 n h ih =>
    rw [dec, dif_neg h, Nat.toDigits_eq_if (by decide), if_neg h, ih]
    have : ∀ m < 10, digit m = m.digitChar := by decide
    rw [this _ (by omega)]

theorem dec_toString (n : Nat) : dec n = (toString n).toList := by
  rw [dec_eq_toDigits]; exact Nat.toList_repr.symm

theorem dec_length_pos (n : Nat) : 1 ≤ (dec n).length := by
  rw [dec]; split <;> simp

theorem dec_length_le (k n : Nat) (hk : 1 ≤ k) (h : n < 10 ^ k) : (dec n).length ≤ k := by
  induction k generalizing n with
  | zero => omega
  | succ k ih =>
    rw [dec]
    split
    · simp
    · rename_i h10
      have hk1 : 1 ≤ k := by
        rcases Nat.eq_zero_or_pos k with rfl | hk
        · simp at h; omega
        · exact hk
      have := ih (n / 10) hk1 (by rw [Nat.pow_succ] at h; omega)
      simp; omega

theorem digit_props : ∀ m < 10, (digit m ≠ nul ∧ digit m ≠ ',' ∧ digit m ≠ '-' ∧ digit m ≠ ' ')
    ∧ (digit m).toNat = 48 + m := by decide

theorem dec_chars (n : Nat) : ∀ c ∈ dec n, c ≠ nul ∧ c ≠ ',' ∧ c ≠ '-' ∧ c ≠ ' ' := by
  induction n using dec.induct with
  | case1 n h => rw [dec, dif_pos h]; simpa using (digit_props n h).1
  | case2 n h ih =>
    rw [dec, dif_neg h]
    intro c hc
    rcases List.mem_append.1 hc with hc | hc
    · exact ih c hc
    · simp at hc; subst hc; exact (digit_props _ (by omega)).1

/-! ## the buffer -/

theorem put_some {buf : List Char} {pos : Nat} {s b : List Char} (h : put buf pos s = some b) :
    pos + s.length + 1 ≤ buf.length ∧
    b = buf.take pos ++ (s ++ [nul]) ++ buf.drop (pos + s.length + 1) := by
  unfold put at h; split at h
  · exact ⟨by assumption, by simpa using h.symm⟩
  · simp at h

theorem put_isSome {buf : List Char} {pos : Nat} {s : List Char}
    (h : pos + s.length + 1 ≤ buf.length) :
    put buf pos s = some (buf.take pos ++ (s ++ [nul]) ++ buf.drop (pos + s.length + 1)) := by
  unfold put; rw [if_pos h]

theorem put_length {buf : List Char} {pos : Nat} {s b : List Char} (h : put buf pos s = some b) :
    b.length = buf.length := by
  obtain ⟨h1, rfl⟩ := put_some h
  simp only [List.length_append, List.length_take, List.length_drop, List.length_cons,
    List.length_nil]
  omega

theorem put_take {buf : List Char} {pos : Nat} {s b : List Char} (h : put buf pos s = some b) :
    b.take (pos + s.length) = buf.take pos ++ s := by
  obtain ⟨h1, rfl⟩ := put_some h
  have hl : (buf.take pos).length = pos := by simp; omega
  rw [List.append_assoc, List.append_assoc, ← List.append_assoc]
  rw [List.take_append_of_le_length (by simp [hl]), List.take_of_length_le (by simp [hl])]

theorem put_take_succ {buf : List Char} {pos : Nat} {s b : List Char} (h : put buf pos s = some b) :
    b.take (pos + s.length + 1) = buf.take pos ++ s ++ [nul] := by
  obtain ⟨h1, rfl⟩ := put_some h
  have hl : (buf.take pos).length = pos := by simp; omega
  rw [List.take_append_of_le_length (by simp [hl]; omega),
    List.take_of_length_le (by simp [hl]; omega), List.append_assoc]

theorem put_drop {buf : List Char} {pos k : Nat} {s b : List Char} (h : put buf pos s = some b)
    (hk : pos + s.length + 1 ≤ k) : b.drop k = buf.drop k := by
  obtain ⟨h1, rfl⟩ := put_some h
  have hl : (buf.take pos ++ (s ++ [nul])).length = pos + s.length + 1 := by simp; omega
  rw [List.drop_append, List.drop_eq_nil_of_le (by omega), hl, List.drop_drop]
  simp; congr 1; omega

theorem zero_isSome {buf : List Char} {i : Nat} (h : i < buf.length) :
    zero buf i = some (buf.set i nul) := by unfold zero; rw [if_pos h]

/-! ## item text -/

theorem itemText_length_le (k a b : Nat) (hk : 1 ≤ k) (ha : a < 10 ^ k) (hb : b < 10 ^ k) :
    (itemText a b).length ≤ 2 * k + 3 := by
  have h1 := dec_length_le k a hk ha
  have h2 := dec_length_le k b hk hb
  unfold itemText; split <;> simp <;> omega

theorem itemText_single_length_le (k b : Nat) (hk : 1 ≤ k) (hb : b < 10 ^ k) :
    (itemText b b).length ≤ k + 2 := by
  have h2 := dec_length_le k b hk hb
  unfold itemText; simp; omega

theorem itemText_nonempty (a b : Nat) : 1 ≤ (itemText a b).length := by
  unfold itemText; split <;> simp

theorem nul_ne {c : Char} (h : c ≠ nul) : nul ≠ c := fun e => h e.symm

theorem itemText_chars (a b : Nat) : ∀ c ∈ itemText a b, c ≠ nul := by
  have h1 : ' ' ≠ nul := by decide
  have h2 : ',' ≠ nul := by decide
  have h3 : '-' ≠ nul := by decide
  intro c hc
  unfold itemText at hc
  split at hc
  · simp only [List.cons_append, List.mem_cons, List.mem_append, List.not_mem_nil, or_false] at hc
    rcases hc with rfl | (hc | rfl | hc) | rfl
    · exact h1
    · exact (dec_chars a c hc).1
    · exact h3
    · exact (dec_chars b c hc).1
    · exact h2
  · simp only [List.cons_append, List.mem_cons, List.mem_append, List.not_mem_nil, or_false] at hc
    rcases hc with rfl | hc | rfl
    · exact h1
    · exact (dec_chars b c hc).1
    · exact h2

/-- All items printed for the runs `rs`. -/
def render (rs : List (Nat × Nat)) : List Char := rs.flatMap fun r => itemText r.1 r.2

/-- The runs the loop of `sigsetLoop` visits from `sig` on. -/
def runsFrom (n : Nat) (mem : Nat → Bool) (sig : Nat) : List (Nat × Nat) :=
  if _h : sig < n then
    if mem sig then (sig, runEnd n mem sig) :: runsFrom n mem (runEnd n mem sig + 1)
    else runsFrom n mem (sig + 1)
  else []
termination_by n - sig
decreasing_by
  · have := le_runEnd n mem sig; omega
  · omega

def countRuns (rs : List (Nat × Nat)) : Nat := (rs.map fun r => itemCount r.1 r.2).sum

theorem runEnd_lt (n : Nat) (mem : Nat → Bool) (sig : Nat) (h : sig < n) :
    runEnd n mem sig < n := by
  induction sig using runEnd.induct n mem with
  | case1 sig h' ih => rw [runEnd, if_pos h']; exact ih h'.1
  | case2 sig h' => rw [runEnd, if_neg h']; exact h

theorem runEnd_mem (n : Nat) (mem : Nat → Bool) (sig : Nat) (h : mem sig = true) :
    ∀ k, sig ≤ k → k ≤ runEnd n mem sig → mem k = true := by
  induction sig using runEnd.induct n mem with
  | case1 sig h' ih =>
    intro k h1 h2
    rw [runEnd, if_pos h'] at h2
    rcases Nat.eq_or_lt_of_le h1 with rfl | h1
    · exact h
    · exact ih h'.2 k h1 h2
  | case2 sig h' =>
    intro k h1 h2; rw [runEnd, if_neg h'] at h2
    have : k = sig := by omega
    subst this; exact h

theorem runEnd_stop (n : Nat) (mem : Nat → Bool) (sig : Nat) :
    runEnd n mem sig + 1 < n → mem (runEnd n mem sig + 1) = false := by
  induction sig using runEnd.induct n mem with
  | case1 sig h' ih => rw [runEnd, if_pos h']; exact ih
  | case2 sig h' =>
    rw [runEnd, if_neg h']; intro h
    simp only [h, true_and] at h'
    simpa using h'

/-- Runs from `sig` on start at or after `sig`. -/
theorem runsFrom_ge (n : Nat) (mem : Nat → Bool) (sig : Nat) :
    ∀ r ∈ runsFrom n mem sig, sig ≤ r.1 ∧ mem r.1 = true := by
  induction sig using runsFrom.induct n mem with
  | case1 sig h hm ih =>
    rw [runsFrom, dif_pos h, if_pos hm]
    intro r hr
    rcases List.mem_cons.1 hr with rfl | hr
    · exact ⟨Nat.le_refl _, hm⟩
    · have := ih r hr; have := le_runEnd n mem sig; exact ⟨by omega, (ih r hr).2⟩
  | case2 sig h hm ih =>
    rw [runsFrom, dif_pos h, if_neg hm]
    intro r hr
    have := ih r hr; exact ⟨by omega, this.2⟩
  | case3 sig h => rw [runsFrom, dif_neg h]; simp

theorem runsFrom_le (n : Nat) (mem : Nat → Bool) (sig : Nat) :
    ∀ r ∈ runsFrom n mem sig, r.1 ≤ r.2 ∧ r.2 < n := by
  induction sig using runsFrom.induct n mem with
  | case1 sig h hm ih =>
    rw [runsFrom, dif_pos h, if_pos hm]
    intro r hr
    rcases List.mem_cons.1 hr with rfl | hr
    · exact ⟨le_runEnd n mem sig, runEnd_lt n mem sig h⟩
    · exact ih r hr
  | case2 sig h hm ih =>
    rw [runsFrom, dif_pos h, if_neg hm]; exact ih
  | case3 sig h => rw [runsFrom, dif_neg h]; simp

theorem runsFrom_gap (n : Nat) (mem : Nat → Bool) (sig : Nat) :
    (runsFrom n mem sig).Pairwise fun r s => r.2 + 1 < s.1 := by
  induction sig using runsFrom.induct n mem with
  | case1 sig h hm ih =>
    rw [runsFrom, dif_pos h, if_pos hm]
    refine List.pairwise_cons.2 ⟨?_, ih⟩
    intro r hr
    have h1 := runsFrom_ge n mem _ r hr
    have h2 := runsFrom_le n mem _ r hr
    rcases Nat.eq_or_lt_of_le h1.1 with he | h1'
    · have := runEnd_stop n mem sig (by omega)
      rw [he, h1.2] at this; simp at this
    · exact h1'
  | case2 sig h hm ih => rw [runsFrom, dif_pos h, if_neg hm]; exact ih
  | case3 sig h => rw [runsFrom, dif_neg h]; exact List.Pairwise.nil

theorem runsFrom_cover (n : Nat) (mem : Nat → Bool) (sig : Nat) (k : Nat) :
    (∃ r ∈ runsFrom n mem sig, r.1 ≤ k ∧ k ≤ r.2) ↔ sig ≤ k ∧ k < n ∧ mem k = true := by
  induction sig using runsFrom.induct n mem with
  | case1 sig h hm ih =>
    rw [runsFrom, dif_pos h, if_pos hm]
    simp only [List.mem_cons, exists_eq_or_imp]
    rw [ih]
    have h1 := le_runEnd n mem sig
    have h2 := runEnd_lt n mem sig h
    constructor
    · rintro (⟨h3, h4⟩ | ⟨h3, h4, h5⟩)
      · exact ⟨h3, by omega, runEnd_mem n mem sig hm k h3 h4⟩
      · exact ⟨by omega, h4, h5⟩
    · rintro ⟨h3, h4, h5⟩
      by_cases h6 : k ≤ runEnd n mem sig
      · exact Or.inl ⟨h3, h6⟩
      · exact Or.inr ⟨by omega, h4, h5⟩
  | case2 sig h hm ih =>
    rw [runsFrom, dif_pos h, if_neg hm, ih]
    constructor
    · rintro ⟨h1, h2⟩; exact ⟨by omega, h2⟩
    · rintro ⟨h1, h2, h3⟩
      rcases Nat.eq_or_lt_of_le h1 with rfl | h1
      · exact absurd h3 hm
      · exact ⟨h1, h2, h3⟩
  | case3 sig h =>
    rw [runsFrom, dif_neg h]; simp; omega

/-- Counting members of `[sig, n)`. -/
def cardFrom (n : Nat) (mem : Nat → Bool) (sig : Nat) : Nat :=
  ((List.range' sig (n - sig)).filter mem).length

theorem cardFrom_split (n : Nat) (mem : Nat → Bool) (a b : Nat) (h1 : a ≤ b) (h2 : b ≤ n) :
    cardFrom n mem a = ((List.range' a (b - a)).filter mem).length + cardFrom n mem b := by
  unfold cardFrom
  have : n - a = (b - a) + (n - b) := by omega
  rw [this, ← List.range'_append_1, List.filter_append, List.length_append]
  congr 4; omega

theorem countRuns_eq (n : Nat) (mem : Nat → Bool) (sig : Nat) :
    countRuns (runsFrom n mem sig) = cardFrom n mem sig := by
  induction sig using runsFrom.induct n mem with
  | case1 sig h hm ih =>
    rw [runsFrom, dif_pos h, if_pos hm]
    have h1 := le_runEnd n mem sig
    have h2 := runEnd_lt n mem sig h
    rw [cardFrom_split n mem sig (runEnd n mem sig + 1) (by omega) (by omega), ← ih]
    unfold countRuns
    simp only [List.map_cons, List.sum_cons]
    congr 1
    have : (List.range' sig (runEnd n mem sig + 1 - sig)).filter mem
        = List.range' sig (runEnd n mem sig + 1 - sig) := by
      apply List.filter_eq_self.2
      intro k hk
      rw [List.mem_range'_1] at hk
      exact runEnd_mem n mem sig hm k hk.1 (by omega)
    rw [this, List.length_range']
    unfold itemCount; split <;> omega
  | case2 sig h hm ih =>
    rw [runsFrom, dif_pos h, if_neg hm, ih,
      cardFrom_split n mem sig (sig + 1) (by omega) (by omega)]
    have : sig + 1 - sig = 1 := by omega
    simp [this, hm]
  | case3 sig h =>
    rw [runsFrom, dif_neg h]
    unfold cardFrom
    have : n - sig = 0 := by omega
    simp [this, countRuns]

theorem card_eq (n : Nat) (mem : Nat → Bool) : Spec.card n mem = cardFrom n mem 1 := by
  unfold Spec.card cardFrom
  rcases n with _ | n
  · simp
  · rw [List.range_eq_range', List.range'_succ]
    simp only [Nat.zero_add, Nat.add_sub_cancel]
    rw [List.filter_cons_of_neg (by simp)]
    congr 1
    apply List.filter_congr
    intro k hk
    rw [List.mem_range'_1] at hk
    simp [hk.1]

theorem isRuns_runsFrom (n : Nat) (mem : Nat → Bool) : Spec.IsRuns n mem (runsFrom n mem 1) :=
  ⟨fun r hr => (runsFrom_le n mem 1 r hr).1, runsFrom_gap n mem 1, runsFrom_cover n mem 1⟩

/-! ## the text -/

theorem itemText_eq (r : Nat × Nat) (h : r.1 ≤ r.2) :
    itemText r.1 r.2 =
      (if r.1 = r.2 then " " ++ toString r.1 else " " ++ toString r.1 ++ "-" ++ toString r.2).toList
        ++ [','] := by
  unfold itemText
  split
  · rw [if_neg (by omega)]
    simp [String.toList_append, dec_toString]
  · rw [if_pos (by omega)]
    have : r.2 = r.1 := by omega
    rw [this]
    simp [String.toList_append, dec_toString]

theorem render_dropLast (rs : List (Nat × Nat)) (h : ∀ r ∈ rs, r.1 ≤ r.2) :
    (render rs).dropLast = (Spec.text rs).toList := by
  unfold Spec.text render
  rw [String.toList_intercalate]
  induction rs with
  | nil => rfl
  | cons r rs ih =>
    have hr := itemText_eq r (h r (by simp))
    rcases rs with _ | ⟨r', rs⟩
    · simp only [List.flatMap_cons, List.flatMap_nil, List.append_nil, hr, List.map_cons,
        List.map_nil, List.dropLast_concat]
      simp [List.intercalate]
    · have ih := ih (fun r hr => h r (List.mem_cons_of_mem _ hr))
      rw [List.flatMap_cons, List.dropLast_append_of_ne_nil
        (by
          rw [List.flatMap_cons]
          intro hnil
          have h1 := congrArg List.length hnil
          have h2 := itemText_nonempty r'.1 r'.2
          rw [List.length_append] at h1
          simp only [List.length_nil] at h1
          omega), ih, hr]
      simp [List.intercalate_cons_cons]

theorem render_chars (rs : List (Nat × Nat)) : ∀ c ∈ render rs, c ≠ nul := by
  intro c hc
  obtain ⟨r, _, hc⟩ := List.mem_flatMap.1 hc
  exact itemText_chars _ _ c hc

theorem takeWhile_prefix_nul (s t : List Char) (hs : ∀ c ∈ s, c ≠ nul) :
    (s ++ nul :: t).takeWhile (· ≠ '\x00') = s := by
  rw [List.takeWhile_append_of_pos (by intro c hc; simpa [nul] using hs c hc)]
  simp [List.takeWhile, nul]

/-! ## the loop -/

/-- The state of the output buffer while looping: `t` is the text so far. -/
structure BufOk (size : Nat) (orig buf t : List Char) (prev : Nat) : Prop where
  len : buf.length = orig.length
  size_le : size ≤ buf.length
  size_ge : itemSize ≤ size
  keep : buf.drop size = orig.drop size
  text : buf.take t.length = t
  fit : t.length + 1 ≤ size
  nonul : ∀ c ∈ t, c ≠ nul
  prevle : prev ≤ t.length
  prevfit : prev + itemSize ≤ size

/-- Result of the final part of the loop. -/
structure Done (size : Nat) (orig b : List Char) : Prop where
  len : b.length = orig.length
  keep : b.drop size = orig.drop size
  term : '\x00' ∈ b.take size

theorem finish {size : Nat} {orig buf t : List Char} {prev : Nat}
    (h : BufOk size orig buf t prev) :
    ∃ b, zero buf (if t.length > 0 then t.length - 1 else 0) = some b ∧ Done size orig b ∧
      b.takeWhile (· ≠ '\x00') = t.dropLast := by
  have hi : (if t.length > 0 then t.length - 1 else 0) = t.length - 1 := by split <;> omega
  have hlt : t.length - 1 < buf.length := by have := h.fit; have := h.size_le; omega
  rw [hi, zero_isSome hlt]
  refine ⟨_, rfl, ⟨by simp [h.len], ?_, ?_⟩, ?_⟩
  · rw [List.drop_set, if_pos (by have := h.fit; omega)]
    exact h.keep
  · rw [List.mem_iff_getElem?]
    refine ⟨t.length - 1, ?_⟩
    rw [List.getElem?_take_of_lt (by have := h.fit; omega), List.getElem?_set_self hlt]; rfl
  · rw [List.set_eq_take_append_cons_drop, if_pos hlt]
    have : buf.take (t.length - 1) = t.dropLast := by
      rw [← h.text, List.dropLast_eq_take, List.take_take, List.length_take]
      have := h.fit; have := h.size_le
      congr 1; omega
    rw [this]
    apply takeWhile_prefix_nul
    intro c hc; exact h.nonul c (List.dropLast_subset _ hc)

theorem BufOk.step {size : Nat} {orig buf t : List Char} {prev : Nat}
    (h : BufOk size orig buf t prev) {s : List Char} (hs : s.length + 1 ≤ itemSize)
    (hn : ∀ c ∈ s, c ≠ nul) (hfit : ¬ t.length + itemSize > size) :
    ∃ b, put buf t.length s = some b ∧ BufOk size orig b (t ++ s) t.length := by
  have hle := h.size_le
  obtain ⟨b, hb⟩ : ∃ b, put buf t.length s = some b := ⟨_, put_isSome (by omega)⟩
  refine ⟨b, hb, ?_⟩
  have hl := put_length hb
  exact
  { len := by rw [hl, h.len]
    size_le := by omega
    size_ge := h.size_ge
    keep := by rw [put_drop hb (by omega), h.keep]
    text := by
      rw [List.length_append, put_take hb, h.text]
    fit := by simp; omega
    nonul := by
      intro c hc; rcases List.mem_append.1 hc with hc | hc
      · exact h.nonul c hc
      · exact hn c hc
    prevle := by simp
    prevfit := by omega }

theorem more_length : more.length = 9 := by decide
theorem more_chars : ∀ c ∈ more, c ≠ nul := by decide

theorem BufOk.more {size : Nat} {orig buf t : List Char} {prev : Nat}
    (h : BufOk size orig buf t prev) :
    ∃ b, put buf prev Utils.more = some b ∧ Done size orig b ∧
      b.takeWhile (· ≠ '\x00') = t.take prev ++ Utils.more := by
  have hm := more_length
  have hp := h.prevfit
  have hle := h.size_le
  have hi : itemSize = 15 := rfl
  obtain ⟨b, hb⟩ : ∃ b, put buf prev Utils.more = some b := ⟨_, put_isSome (by omega)⟩
  refine ⟨b, hb, ⟨by rw [put_length hb, h.len], by rw [put_drop hb (by omega), h.keep], ?_⟩, ?_⟩
  · have h1 := put_take_succ hb
    have h2 : nul ∈ b.take (prev + Utils.more.length + 1) := by rw [h1]; simp
    exact (List.take_subset_take_left b (by omega)) h2
  · obtain ⟨_, rfl⟩ := put_some hb
    have : buf.take prev = t.take prev := by
      have := h.prevle
      rw [← h.text, List.take_take]; congr 1; omega
    rw [this]
    have h3 : t.take prev ++ (Utils.more ++ [nul]) ++ buf.drop (prev + Utils.more.length + 1)
      = (t.take prev ++ Utils.more) ++ nul :: buf.drop (prev + Utils.more.length + 1) := by simp
    rw [h3]
    apply takeWhile_prefix_nul
    intro c hc
    rcases List.mem_append.1 hc with hc | hc
    · exact h.nonul c (List.take_subset _ _ hc)
    · exact more_chars c hc

theorem render_cons (r : Nat × Nat) (rs) : render (r :: rs) = itemText r.1 r.2 ++ render rs := by
  simp [render]

/-- What the loop guarantees. -/
theorem sigsetLoop_ok (n : Nat) (mem : Nat → Bool) (size : Nat) (hn : n ≤ 10 ^ 5)
    (buf : List Char) (pos prev num sig : Nat) (orig t : List Char)
    (ht : pos = t.length) (h : BufOk size orig buf t prev) :
    ∃ b r, sigsetLoop n mem size buf pos prev num sig = .ret b r ∧ Done size orig b ∧
      ((r = ((num + countRuns (runsFrom n mem sig) : Nat) : Int) ∧
        b.takeWhile (· ≠ '\x00') = (t ++ render (runsFrom n mem sig)).dropLast) ∨
       (r = -1 ∧ size < (t ++ render (runsFrom n mem sig)).length + itemSize ∧
        ∃ p, p <+: t ++ render (runsFrom n mem sig) ∧
          b.takeWhile (· ≠ '\x00') = p ++ more)) := by
  induction sig using runsFrom.induct n mem generalizing buf pos prev num t with
  | case1 sig hlt hm ih =>
    rw [sigsetLoop, dif_pos hlt, if_pos hm, runsFrom, dif_pos hlt, if_pos hm]
    by_cases hfit : pos + itemSize > size
    · rw [if_pos hfit]
      obtain ⟨b, hb, hd, htw⟩ := h.more
      refine ⟨b, -1, by rw [hb], hd, Or.inr ⟨rfl, by simp; omega, t.take prev, ?_, htw⟩⟩
      exact (List.take_prefix _ _).trans (List.prefix_append _ _)
    · rw [if_neg hfit]
      subst ht
      have hlast := runEnd_lt n mem sig hlt
      have hlen := itemText_length_le 5 sig (runEnd n mem sig) (by omega) (by omega) (by omega)
      obtain ⟨b, hb, hok⟩ := h.step (s := itemText sig (runEnd n mem sig))
        (by have : itemSize = 15 := rfl; omega) (itemText_chars _ _) hfit
      simp only [hb]
      obtain ⟨b', r, hr, hd, hcase⟩ := ih b _ _ (num + itemCount sig (runEnd n mem sig))
        (t ++ itemText sig (runEnd n mem sig)) (List.length_append ..).symm hok
      refine ⟨b', r, hr, hd, ?_⟩
      rw [render_cons]
      rw [List.append_assoc] at hcase
      rcases hcase with ⟨h1, h2⟩ | h1
      · left
        refine ⟨?_, h2⟩
        rw [h1]
        simp only [countRuns, List.map_cons, List.sum_cons]
        congr 1; omega
      · exact Or.inr h1
  | case2 sig hlt hm ih =>
    rw [sigsetLoop, dif_pos hlt, if_neg hm, runsFrom, dif_pos hlt, if_neg hm]
    exact ih buf pos prev num t ht h
  | case3 sig hlt =>
    rw [sigsetLoop, dif_neg hlt, runsFrom, dif_neg hlt]
    subst ht
    obtain ⟨b, hb, hd, htw⟩ := finish h
    rw [hb]
    exact ⟨b, _, rfl, hd, Or.inl ⟨by simp [countRuns], by simpa [render] using htw⟩⟩

theorem itemText_length_run (s e : Nat) (h : s ≤ e) (he : e < 1000) :
    (itemText s e).length ≤ 3 * (e + 2 - s) := by
  rcases Nat.eq_or_lt_of_le h with rfl | h'
  · have := itemText_single_length_le 3 s (by omega) (by omega); omega
  · have := itemText_length_le 3 s e (by omega) (by omega) (by omega); omega

/-- The text of the runs of a set below `n ≤ 1000` has at most `3 n` characters. -/
theorem render_length_le (n : Nat) (mem : Nat → Bool) (hn : n ≤ 1000) (m s : Nat)
    (hm : n - s ≤ m) (h1 : 1 ≤ s) (h2 : s ≤ n) :
    (render (runsFrom n mem s)).length + 3 * (s - 1) ≤ 3 * n := by
  induction m generalizing s with
  | zero =>
    have : s = n := by omega
    subst this
    rw [runsFrom, dif_neg (by omega)]; simp [render]; omega
  | succ m ihm =>
    by_cases hsn : s < n
    · by_cases hms : mem s = true
      · have e1 := le_runEnd n mem s
        have e2 := runEnd_lt n mem s hsn
        rw [runsFrom, dif_pos hsn, if_pos hms, render_cons, List.length_append]
        have hlen := itemText_length_run s (runEnd n mem s) e1 (by omega)
        by_cases h4 : runEnd n mem s + 1 < n
        · have hst := runEnd_stop n mem s h4
          have : runsFrom n mem (runEnd n mem s + 1) = runsFrom n mem (runEnd n mem s + 2) := by
            conv => lhs; rw [runsFrom, dif_pos h4, if_neg (by simp [hst])]
          rw [this]
          have := ihm (runEnd n mem s + 2) (by omega) (by omega) (by omega)
          dsimp only
          omega
        · rw [runsFrom, dif_neg h4]
          simp [render]; omega
      · rw [runsFrom, dif_pos hsn, if_neg hms]
        have := ihm (s + 1) (by omega) (by omega) (by omega)
        omega
    · rw [runsFrom, dif_neg hsn]; simp [render]; omega

/-! ## the text determines the runs -/

/-- Reader for the printed text: state is (finished runs, start of range, number). -/
def readStep (st : List (Nat × Nat) × Option Nat × Nat) (c : Char) :
    List (Nat × Nat) × Option Nat × Nat :=
  if c = ' ' then (st.1, none, 0)
  else if c = '-' then (st.1, some st.2.2, 0)
  else if c = ',' then (st.1 ++ [(st.2.1.getD st.2.2, st.2.2)], none, 0)
  else (st.1, st.2.1, 10 * st.2.2 + (c.toNat - 48))

theorem readStep_dec (n : Nat) (acc : List (Nat × Nat)) (f : Option Nat) :
    (dec n).foldl readStep (acc, f, 0) = (acc, f, n) := by
  induction n using dec.induct with
  | case1 n h =>
    rw [dec, dif_pos h]
    have h1 := digit_props n h
    simp [readStep, h1.1, h1.2]
  | case2 n h ih =>
    rw [dec, dif_neg h, List.foldl_append, ih]
    have h1 := digit_props (n % 10) (by omega)
    simp only [List.foldl_cons, List.foldl_nil, readStep, h1.1, h1.2, if_false]
    congr 2; omega

theorem readStep_item (r : Nat × Nat) (hr : r.1 ≤ r.2) (acc : List (Nat × Nat)) :
    (itemText r.1 r.2).foldl readStep (acc, none, 0) = (acc ++ [r], none, 0) := by
  have s1 : ∀ st, readStep st ' ' = (st.1, none, 0) := fun _ => rfl
  have s2 : ∀ st, readStep st '-' = (st.1, some st.2.2, 0) := fun _ => rfl
  have s3 : ∀ st, readStep st ',' = (st.1 ++ [(st.2.1.getD st.2.2, st.2.2)], none, 0) := fun _ => rfl
  unfold itemText
  split
  · simp only [List.cons_append, List.foldl_cons, List.foldl_append, List.foldl_nil, s1, s2, s3,
      readStep_dec, Option.getD_some]
  · have : r = (r.2, r.2) := by ext <;> simp; omega
    simp only [List.cons_append, List.foldl_cons, List.foldl_append, List.foldl_nil, s1, s3,
      readStep_dec, Option.getD_none]
    rw [← this]

theorem readStep_render (rs : List (Nat × Nat)) (h : ∀ r ∈ rs, r.1 ≤ r.2)
    (acc : List (Nat × Nat)) :
    (render rs).foldl readStep (acc, none, 0) = (acc ++ rs, none, 0) := by
  induction rs generalizing acc with
  | nil => simp [render]
  | cons r rs ih =>
    rw [render_cons, List.foldl_append, readStep_item r (h r (by simp)),
      ih (fun r hr => h r (List.mem_cons_of_mem _ hr))]
    simp

theorem itemText_last (a b : Nat) : ∃ p, itemText a b = p ++ [','] := by
  unfold itemText; split
  · exact ⟨' ' :: dec a ++ '-' :: dec b, by simp⟩
  · exact ⟨' ' :: dec b, by simp⟩

theorem render_last (rs : List (Nat × Nat)) (h : rs ≠ []) :
    render rs = (render rs).dropLast ++ [','] := by
  have : ∃ p, render rs = p ++ [','] := by
    induction rs with
    | nil => exact absurd rfl h
    | cons r rs ih =>
      rw [render_cons]
      by_cases hr : rs = []
      · subst hr; simpa [render] using itemText_last r.1 r.2
      · obtain ⟨p, hp⟩ := ih hr
        exact ⟨itemText r.1 r.2 ++ p, by rw [hp]; simp⟩
  obtain ⟨p, hp⟩ := this
  rw [hp]; simp

theorem render_dropLast_nil (rs : List (Nat × Nat)) (h : (render rs).dropLast = []) :
    rs = [] := by
  cases rs with
  | nil => rfl
  | cons r rs =>
    exfalso
    have h2 := render_last (r :: rs) (by simp)
    rw [h, render_cons] at h2
    have : itemText r.1 r.2 ≠ [] := by
      intro he; have := itemText_nonempty r.1 r.2; rw [he] at this; simp at this
    unfold itemText at h2
    split at h2 <;> simp at h2

theorem text_injective (rs rs' : List (Nat × Nat)) (h : ∀ r ∈ rs, r.1 ≤ r.2)
    (h' : ∀ r ∈ rs', r.1 ≤ r.2) (he : Spec.text rs = Spec.text rs') : rs = rs' := by
  have h1 : (render rs).dropLast = (render rs').dropLast := by
    rw [render_dropLast rs h, render_dropLast rs' h', he]
  by_cases e : rs = []
  · subst e
    have : (render rs').dropLast = [] := by rw [← h1]; rfl
    exact (render_dropLast_nil rs' this).symm
  · by_cases e' : rs' = []
    · subst e'
      exact render_dropLast_nil rs (by rw [h1]; rfl)
    · have h2 : render rs = render rs' := by
        rw [render_last rs e, render_last rs' e', h1]
      have h3 := readStep_render rs h []
      have h4 := readStep_render rs' h' []
      rw [h2, h4] at h3
      simpa using (congrArg Prod.fst h3).symm

/-! ## the list form -/

/-- Longest ascending run continuing `sig`, and what is left. -/
def natRun (sig : Nat) : List Nat → Nat × List Nat
  | [] => (sig, [])
  | y :: r => if y = sig + 1 then natRun y r else (sig, y :: r)

theorem natRun_length (sig : Nat) (l : List Nat) : (natRun sig l).2.length ≤ l.length := by
  induction l generalizing sig with
  | nil => simp [natRun]
  | cons y r ih => simp only [natRun]; split
                   · have := ih y; simp; omega
                   · simp

theorem natRun_ge (sig : Nat) (l : List Nat) : sig ≤ (natRun sig l).1 := by
  induction l generalizing sig with
  | nil => simp [natRun]
  | cons y r ih =>
    simp only [natRun]; split
    · have := ih y; omega
    · simp

theorem natRun_concat (sig : Nat) (l : List Nat) :
    List.range' (sig + 1) ((natRun sig l).1 - sig) ++ (natRun sig l).2 = l := by
  induction l generalizing sig with
  | nil => simp [natRun]
  | cons y r ih =>
    simp only [natRun]; split
    · rename_i h
      have h1 := ih y
      have h2 := natRun_ge y r
      have : (natRun y r).1 - sig = ((natRun y r).1 - y) + 1 := by omega
      rw [this, List.range'_succ, List.cons_append, ← h, h1]
    · simp

theorem natRun_mem (sig : Nat) (l : List Nat) :
    ((natRun sig l).1 = sig ∨ (natRun sig l).1 ∈ l) ∧ ∀ x ∈ (natRun sig l).2, x ∈ l := by
  induction l generalizing sig with
  | nil => simp [natRun]
  | cons y r ih =>
    simp only [natRun]; split
    · obtain ⟨h1, h2⟩ := ih y
      refine ⟨Or.inr ?_, fun x hx => List.mem_cons_of_mem _ (h2 x hx)⟩
      rcases h1 with h1 | h1
      · rw [h1]; simp
      · exact List.mem_cons_of_mem _ h1
    · simp

theorem natRun_stop (sig : Nat) (l : List Nat) (y : Nat) (r : List Nat)
    (h : (natRun sig l).2 = y :: r) : (natRun sig l).1 + 1 ≠ y := by
  induction l generalizing sig with
  | nil => simp [natRun] at h
  | cons z s ih =>
    simp only [natRun] at h ⊢
    split at h
    · rename_i hz; rw [if_pos hz]; exact ih z h
    · rename_i hz; rw [if_neg hz]; simp at h; simp; omega

/-- The runs of a list. -/
def natRuns : List Nat → List (Nat × Nat)
  | [] => []
  | x :: r => (x, (natRun x r).1) :: natRuns (natRun x r).2
termination_by l => l.length
decreasing_by have := natRun_length x r; simp; omega

theorem natRuns_segments (l : List Nat) : Spec.IsSegments l (natRuns l) := by
  induction l using natRuns.induct with
  | case1 => rw [natRuns]; exact ⟨by simp, by simp, by simp⟩
  | case2 x r ih =>
    rw [natRuns]
    refine ⟨?_, ?_, ?_⟩
    · intro p hp
      rcases List.mem_cons.1 hp with rfl | hp
      · exact natRun_ge x r
      · exact ih.ordered p hp
    · rw [List.flatMap_cons, ih.concat]
      have h1 := natRun_ge x r
      have h2 := natRun_concat x r
      have : (natRun x r).1 + 1 - x = ((natRun x r).1 - x) + 1 := by omega
      simp only [this, List.range'_succ, List.cons_append, h2]
    · intro pre p s post he
      cases pre with
      | nil =>
        simp only [List.nil_append, List.cons.injEq] at he
        obtain ⟨rfl, he⟩ := he
        cases hl : (natRun x r).2 with
        | nil => rw [hl, natRuns] at he; simp at he
        | cons y q =>
          rw [hl, natRuns] at he
          simp only [List.cons.injEq] at he
          have := natRun_stop x r y q hl
          rw [← he.1]; exact this
      | cons p' pre =>
        simp only [List.cons_append, List.cons.injEq] at he
        exact ih.maximal pre p s post he.2

theorem listRun_eq (big : Int) (sig : Nat) (l : List Nat) (z : Int) (rest : List Int)
    (hz : z ≤ 0) (hs : (sig : Int) < big) (hl : ∀ x ∈ l, (x : Int) < big) :
    listRun big sig (l.map Int.ofNat ++ z :: rest) =
      some (((natRun sig l).1 : Int), (natRun sig l).2.map Int.ofNat ++ z :: rest) := by
  induction l generalizing sig with
  | nil =>
    simp only [List.map_nil, List.nil_append, listRun, natRun]
    rw [if_neg (by omega), if_neg (by omega)]
  | cons y r ih =>
    simp only [List.map_cons, List.cons_append, listRun, natRun, Int.ofNat_eq_natCast]
    rw [if_neg (by omega)]
    by_cases h : y = sig + 1
    · rw [if_pos (by omega), if_pos h]
      exact ih y (hl y (by simp)) (fun x hx => hl x (List.mem_cons_of_mem _ hx))
    · rw [if_neg (by omega), if_neg h]
      simp

theorem countRuns_segments (rs : List (Nat × Nat)) (l : List Nat) (h : Spec.IsSegments l rs) :
    countRuns rs = l.length := by
  obtain ⟨h1, rfl, h0⟩ := h
  clear h0
  unfold countRuns
  induction rs with
  | nil => rfl
  | cons r rs ih =>
    have := ih (fun r hr => h1 r (List.mem_cons_of_mem _ hr))
    have h2 := h1 r (by simp)
    rw [List.map_cons, List.sum_cons, this, List.flatMap_cons, List.length_append,
      List.length_range']
    congr 1
    unfold itemCount; split <;> omega

theorem listLoop_ok (big : Int) (l : List Nat) (rest : List Int) (z : Int) (size : Nat)
    (hz : z ≤ 0) (hpos : ∀ x ∈ l, 1 ≤ x) (hmax : ∀ x ∈ l, x < 10 ^ 5) (hbig : 10 ^ 5 ≤ big)
    (buf : List Char) (pos prev num : Nat) (orig t : List Char)
    (ht : pos = t.length) (h : BufOk size orig buf t prev) :
    ∃ b r, listLoop big size buf pos prev num (l.map Int.ofNat ++ z :: rest) = .ret b r ∧
      Done size orig b ∧
      ((r = ((num + countRuns (natRuns l) : Nat) : Int) ∧
        b.takeWhile (· ≠ '\x00') = (t ++ render (natRuns l)).dropLast) ∨ r = -1) := by
  induction l using natRuns.induct generalizing buf pos prev num t with
  | case1 =>
    simp only [List.map_nil, List.nil_append]
    rw [listLoop, if_neg (by omega), natRuns]
    subst ht
    obtain ⟨b, hb, hd, htw⟩ := finish h
    rw [hb]
    exact ⟨b, _, rfl, hd, Or.inl ⟨by simp [countRuns], by simpa [render] using htw⟩⟩
  | case2 x l ih =>
    have hx := hpos x (by simp)
    have hx' := hmax x (by simp)
    simp only [List.map_cons, List.cons_append, Int.ofNat_eq_natCast]
    rw [listLoop, if_pos (by omega), natRuns]
    subst ht
    by_cases hfit : t.length + itemSize > size
    · rw [if_pos hfit]
      obtain ⟨b, hb, hd, _⟩ := h.more
      exact ⟨b, -1, by rw [hb], hd, Or.inr rfl⟩
    · rw [if_neg hfit]
      have hbound : ∀ y ∈ l, (y : Int) < big := by
        intro y hy; have := hmax y (List.mem_cons_of_mem _ hy); omega
      have hrun := listRun_eq big x l z rest hz (by omega) hbound
      have hm := natRun_mem x l
      have hlast : (natRun x l).1 < 10 ^ 5 := by
        rcases hm.1 with e | e
        · omega
        · exact hmax _ (List.mem_cons_of_mem _ e)
      have hlen := itemText_length_le 5 x (natRun x l).1 (by omega) (by omega) hlast
      obtain ⟨b, hb, hok⟩ := h.step (s := itemText x (natRun x l).1)
        (by have : itemSize = 15 := rfl; omega) (itemText_chars _ _) hfit
      obtain ⟨b', r, hr, hd, hcase⟩ := ih
        (fun y hy => hpos y (List.mem_cons_of_mem _ (hm.2 y hy)))
        (fun y hy => hmax y (List.mem_cons_of_mem _ (hm.2 y hy)))
        b _ _ (num + itemCount x (natRun x l).1)
        (t ++ itemText x (natRun x l).1) (List.length_append ..).symm hok
      refine ⟨b', r, ?_, hd, ?_⟩
      · rw [← hr]
        split
        · rename_i he; rw [hrun] at he; simp at he
        · rename_i last rest' he
          rw [hrun] at he
          simp only [Option.some.injEq, Prod.mk.injEq] at he
          obtain ⟨rfl, rfl⟩ := he
          simp only [Int.toNat_natCast, hb]
      · rw [render_cons]
        rcases hcase with ⟨h1, h2⟩ | h1
        · left
          refine ⟨?_, by rw [h2, List.append_assoc]⟩
          rw [h1]
          simp only [countRuns, List.map_cons, List.sum_cons]
          congr 1; omega
        · exact Or.inr h1

theorem signalListString_ok (big : Int) (l : List Nat) (rest : List Int) (z : Int)
    (hz : z ≤ 0) (hpos : ∀ x ∈ l, 1 ≤ x) (hmax : ∀ x ∈ l, x < 10 ^ 5) (hbig : 10 ^ 5 ≤ big)
    (buf : List Char) (size : Int) (hsz : size ≤ buf.length) (hlen : 1 ≤ buf.length) :
    ∃ b r, signalListString big buf size (some (l.map Int.ofNat ++ z :: rest)) =
        .ret b r ∧ b.length = buf.length ∧
      b.drop (max 1 size.toNat) = buf.drop (max 1 size.toNat) ∧
      '\x00' ∈ b.take (max 1 size.toNat) ∧
      ((r = l.length ∧ ∃ rs, Spec.IsSegments l rs ∧
        b.takeWhile (· ≠ '\x00') = (render rs).dropLast) ∨ r = -1) := by
  unfold signalListString
  rw [zero_isSome (by omega)]
  simp only
  have hi : itemSize = 15 := rfl
  by_cases hs : size < (itemSize : Int)
  · rw [if_pos hs]
    refine ⟨_, _, rfl, by simp, ?_, ?_, Or.inr rfl⟩
    · rw [List.drop_set, if_pos (by omega)]
    · rw [List.mem_iff_getElem?]
      exact ⟨0, by rw [List.getElem?_take_of_lt (by omega), List.getElem?_set_self (by omega)]; rfl⟩
  · rw [if_neg hs]
    have hmax' : max 1 size.toNat = size.toNat := by omega
    have hdrop : (buf.set 0 nul).drop size.toNat = buf.drop size.toNat := by
      rw [List.drop_set, if_pos (by omega)]
    have hok : BufOk size.toNat buf (buf.set 0 nul) [] 0 :=
      { len := by simp, size_le := by simp; omega, size_ge := by omega, keep := hdrop,
        text := by simp, fit := by simp; omega, nonul := by simp, prevle := by simp,
        prevfit := by omega }
    rw [hmax']
    obtain ⟨b, r, hr, hd, hc⟩ :=
      listLoop_ok big l rest z size.toNat hz hpos hmax hbig _ 0 0 0 buf [] rfl hok
    refine ⟨b, r, hr, hd.len, hd.keep, hd.term, ?_⟩
    rw [countRuns_segments _ l (natRuns_segments l)] at hc
    rcases hc with ⟨h1, h2⟩ | h1
    · exact Or.inl ⟨by simpa using h1, natRuns l, natRuns_segments l, by simpa using h2⟩
    · exact Or.inr h1

end Libmonitor.Utils
