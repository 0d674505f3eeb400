import Verif.Utils.Lemmas

/-!
# C39, C40: printing a signal set
-/

namespace Libmonitor.Utils

/-- What `monitor_sigset_string` does on every buffer with at least one byte. -/
theorem sigsetString_ok (n : Nat) (hn : n ≤ 10 ^ 5) (buf : List Char) (size : Int)
    (set : Option (Nat → Bool)) (hsz : size ≤ buf.length) (hpos : 1 ≤ buf.length) :
    ∃ b r, sigsetString n buf size set = .ret b r ∧ b.length = buf.length ∧
      b.drop (max 1 size.toNat) = buf.drop (max 1 size.toNat) ∧
      '\x00' ∈ b.take (max 1 size.toNat) ∧
      (15 ≤ size → ∀ mem, set = some mem →
        ((r = (Spec.card n mem : Int) ∧
          b.takeWhile (· ≠ '\x00') = (render (runsFrom n mem 1)).dropLast) ∨
         (r = -1 ∧ size.toNat < (render (runsFrom n mem 1)).length + itemSize ∧
          ∃ p, p <+: render (runsFrom n mem 1) ∧ b.takeWhile (· ≠ '\x00') = p ++ more))) := by
  unfold sigsetString
  rw [zero_isSome (by omega)]
  simp only
  have hi : itemSize = 15 := rfl
  by_cases hs : size < (itemSize : Int)
  · rw [if_pos hs]
    refine ⟨_, _, rfl, by simp, ?_, ?_, fun h => by omega⟩
    · rw [List.drop_set, if_pos (by omega)]
    · rw [List.mem_iff_getElem?]
      exact ⟨0, by rw [List.getElem?_take_of_lt (by omega), List.getElem?_set_self (by omega)]; rfl⟩
  · rw [if_neg hs]
    have hmax : max 1 size.toNat = size.toNat := by omega
    have hdrop : (buf.set 0 nul).drop size.toNat = buf.drop size.toNat := by
      rw [List.drop_set, if_pos (by omega)]
    have hok : BufOk size.toNat buf (buf.set 0 nul) [] 0 :=
      { len := by simp, size_le := by simp; omega, size_ge := by omega, keep := hdrop,
        text := by simp, fit := by simp; omega, nonul := by simp, prevle := by simp,
        prevfit := by omega }
    rw [hmax]
    cases set with
    | none =>
      simp only
      obtain ⟨b, hb, hok'⟩ := hok.step (s := nullText) (by decide) (by decide) (by simp; omega)
      simp only [List.length_nil] at hb
      rw [hb]
      refine ⟨b, 0, rfl, hok'.len, hok'.keep, ?_, fun _ _ h => by simp at h⟩
      have h1 := put_take_succ hb
      have h2 : nul ∈ b.take (0 + nullText.length + 1) := by rw [h1]; simp
      have h3 : nullText.length = 7 := by decide
      exact (List.take_subset_take_left b (by omega)) h2
    | some mem =>
      simp only
      obtain ⟨b, r, hr, hd, hc⟩ := sigsetLoop_ok n mem size.toNat hn _ 0 0 0 1 buf [] rfl hok
      refine ⟨b, r, hr, hd.len, hd.keep, hd.term, fun _ m hm => ?_⟩
      cases hm
      rw [card_eq, ← countRuns_eq]
      simpa using hc

/-- **C39.**  For every set (or NULL), every buffer and every claimed size that does not
exceed the buffer (which has at least one byte), printing never writes outside the
buffer; bytes from `max 1 size` on keep their value; the result is NUL terminated inside
the buffer.  `n` is `MONITOR_NSIG` (65 on Linux, 128 as a fallback; any value up to
100000 is covered). -/
theorem C39_sigset_string_in_bounds (n : Nat) (hn : n ≤ 10 ^ 5) (buf : List Char) (size : Int)
    (set : Option (Nat → Bool)) (hsz : size ≤ buf.length) (hpos : 1 ≤ buf.length) :
    ∃ b r, sigsetString n buf size set = .ret b r ∧ b.length = buf.length ∧
      (∀ i : Nat, size ≤ i → 1 ≤ i → b[i]? = buf[i]?) ∧
      (∃ i, i < max 1 size.toNat ∧ b[i]? = some '\x00') := by
  obtain ⟨b, r, h1, h2, h3, h4, _⟩ := sigsetString_ok n hn buf size set hsz hpos
  refine ⟨b, r, h1, h2, fun i hi hi1 => ?_, ?_⟩
  · have := congrArg (fun l => l[i - max 1 size.toNat]?) h3
    simp only [List.getElem?_drop] at this
    have he : max 1 size.toNat + (i - max 1 size.toNat) = i := by omega
    rwa [he] at this
  · obtain ⟨i, hi⟩ := List.mem_iff_getElem?.1 h4
    have hlt : i < max 1 size.toNat := by
      have := (List.getElem?_eq_some_iff.1 hi).1
      simp at this; omega
    exact ⟨i, hlt, by rwa [List.getElem?_take_of_lt hlt] at hi⟩

/-- The two hypotheses of `C39_sigset_string_in_bounds` hold for a real call. -/
example : ∃ buf : List Char, (500 : Int) ≤ buf.length ∧ 1 ≤ buf.length :=
  ⟨List.replicate 500 'x', by rw [List.length_replicate]; decide, by rw [List.length_replicate]; decide⟩

/-- **C39.**  A buffer of at least `3 n + 15` bytes never overflows: the printing succeeds for
every set.  (`MONITOR_SIG_BUF_SIZE` is 500 and `MONITOR_NSIG` at most 128, so every call
in the library succeeds.) -/
theorem C39_sigset_string_fits (n : Nat) (hn : 1 ≤ n) (hn' : n ≤ 1000) (buf : List Char)
    (size : Int) (mem : Nat → Bool) (hsz : size ≤ buf.length) (hbig : 3 * n + 15 ≤ size) :
    ∃ b, sigsetString n buf size (some mem) = .ret b (Spec.card n mem) := by
  obtain ⟨b, r, h1, _, _, _, h5⟩ :=
    sigsetString_ok n (by omega) buf size (some mem) hsz (by omega)
  rcases h5 (by omega) mem rfl with ⟨h, _⟩ | ⟨_, h, _⟩
  · exact ⟨b, h ▸ h1⟩
  · have := render_length_le n mem hn' n 1 (by omega) (by omega) hn
    have : itemSize = 15 := rfl
    omega

example : ∃ b, sigsetString 65 (List.replicate 500 'x') 500 (some fun k => k % 2 == 1) =
    .ret b (Spec.card 65 fun k => k % 2 == 1) :=
  C39_sigset_string_fits 65 (by decide) (by decide) _ _ _
    (by rw [List.length_replicate]; decide) (by decide)

/-- **C40.**  If printing does not report failure, the buffer holds exactly the text of the
maximal runs of the set and the return value is the number of members. -/
theorem C40_sigset_string_faithful (n : Nat) (hn : n ≤ 10 ^ 5) (buf : List Char) (size : Int)
    (mem : Nat → Bool) (hsz : size ≤ buf.length) (b : List Char) (r : Int)
    (hpos : 1 ≤ buf.length)
    (h : sigsetString n buf size (some mem) = .ret b r) (hr : r ≠ -1) :
    r = Spec.card n mem ∧
    ∃ rs, Spec.IsRuns n mem rs ∧ Spec.cstr b = Spec.text rs := by
  obtain ⟨b', r', h1, _, _, _, h5⟩ := sigsetString_ok n hn buf size (some mem) hsz hpos
  rw [h] at h1
  cases h1
  by_cases hs : 15 ≤ size
  · rcases h5 hs mem rfl with ⟨h2, h3⟩ | ⟨h2, _⟩
    · refine ⟨h2, runsFrom n mem 1, isRuns_runsFrom n mem, ?_⟩
      unfold Spec.cstr
      rw [h3, render_dropLast _ (fun r hr => (runsFrom_le n mem 1 r hr).1), String.ofList_toList]
    · exact absurd h2 hr
  · exfalso
    unfold sigsetString at h
    rw [zero_isSome (by omega)] at h
    simp only at h
    rw [if_pos (by have : itemSize = 15 := rfl; omega)] at h
    cases h; exact hr rfl

/-- A concrete run: the set {10, 12, 20..30} in a 40 byte buffer. -/
example : sigsetString 65 (List.replicate 30 'x') 30
      (some fun k => k == 10 || k == 12 || (decide (20 ≤ k) && decide (k ≤ 30))) =
    .ret (" 10, 12, 20-30\x00\x00xxxxxxxxxxxxxx".toList) 13 := by decide +kernel

/-- The same set in a buffer that is too small. -/
example : sigsetString 65 (List.replicate 20 'x') 20
      (some fun k => k == 10 || k == 12 || (decide (20 ≤ k) && decide (k ≤ 30))) =
    .ret (" 10, and more\x00xxxxxx".toList) (-1) := by decide +kernel

/-- **C40.**  Different sets print differently: if two calls succeed with the same
text, the two sets have the same members. -/
theorem C40_sigset_string_injective (n : Nat) (hn : n ≤ 10 ^ 5)
    (buf₁ buf₂ : List Char) (size₁ size₂ : Int) (mem₁ mem₂ : Nat → Bool)
    (h₁ : size₁ ≤ buf₁.length) (h₂ : size₂ ≤ buf₂.length)
    (p₁ : 1 ≤ buf₁.length) (p₂ : 1 ≤ buf₂.length)
    (b₁ b₂ : List Char) (r₁ r₂ : Int)
    (e₁ : sigsetString n buf₁ size₁ (some mem₁) = .ret b₁ r₁) (k₁ : r₁ ≠ -1)
    (e₂ : sigsetString n buf₂ size₂ (some mem₂) = .ret b₂ r₂) (k₂ : r₂ ≠ -1)
    (htext : Spec.cstr b₁ = Spec.cstr b₂) :
    ∀ k, 1 ≤ k → k < n → mem₁ k = mem₂ k := by
  obtain ⟨_, rs₁, i₁, t₁⟩ := C40_sigset_string_faithful n hn buf₁ size₁ mem₁ h₁ b₁ r₁ p₁ e₁ k₁
  obtain ⟨_, rs₂, i₂, t₂⟩ := C40_sigset_string_faithful n hn buf₂ size₂ mem₂ h₂ b₂ r₂ p₂ e₂ k₂
  rw [t₁, t₂] at htext
  have he := text_injective rs₁ rs₂ i₁.ordered i₂.ordered htext
  subst he
  intro k hk hkn
  have a := (i₁.cover k).symm.trans (i₂.cover k)
  rw [Bool.eq_iff_iff]
  constructor
  · intro h; exact (a.1 ⟨hk, hkn, h⟩).2.2
  · intro h; exact (a.2 ⟨hk, hkn, h⟩).2.2

/-- **C39.**  The list form: for a list of valid signal numbers with its terminator, printing
stays inside the buffer and NUL terminates it. -/
theorem C39_signal_list_in_bounds (big : Int) (l : List Nat) (rest : List Int) (z : Int)
    (hz : z ≤ 0) (hpos : ∀ x ∈ l, 1 ≤ x) (hmax : ∀ x ∈ l, x < 10 ^ 5) (hbig : 10 ^ 5 ≤ big)
    (buf : List Char) (size : Int) (hsz : size ≤ buf.length) (hlen : 1 ≤ buf.length) :
    ∃ b r, signalListString big buf size (some (l.map Int.ofNat ++ z :: rest)) =
        .ret b r ∧ b.length = buf.length ∧
      (∀ i : Nat, size ≤ i → 1 ≤ i → b[i]? = buf[i]?) ∧
      (∃ i, i < max 1 size.toNat ∧ b[i]? = some '\x00') := by
  obtain ⟨b, r, h1, h2, h3, h4, _⟩ :=
    signalListString_ok big l rest z hz hpos hmax hbig buf size hsz hlen
  refine ⟨b, r, h1, h2, fun i hi hi1 => ?_, ?_⟩
  · have := congrArg (fun l => l[i - max 1 size.toNat]?) h3
    simp only [List.getElem?_drop] at this
    have he : max 1 size.toNat + (i - max 1 size.toNat) = i := by omega
    rwa [he] at this
  · obtain ⟨i, hi⟩ := List.mem_iff_getElem?.1 h4
    have hlt : i < max 1 size.toNat := by
      have := (List.getElem?_eq_some_iff.1 hi).1
      simp at this; omega
    exact ⟨i, hlt, by rwa [List.getElem?_take_of_lt hlt] at hi⟩

/-- **C40.**  The list form prints the list cut into maximal ascending runs and returns its
length. -/
theorem C40_signal_list_faithful (big : Int) (l : List Nat) (rest : List Int) (z : Int)
    (hz : z ≤ 0) (hpos : ∀ x ∈ l, 1 ≤ x) (hmax : ∀ x ∈ l, x < 10 ^ 5) (hbig : 10 ^ 5 ≤ big)
    (buf : List Char) (size : Int) (hsz : size ≤ buf.length) (hlen : 1 ≤ buf.length)
    (b : List Char) (r : Int)
    (h : signalListString big buf size (some (l.map Int.ofNat ++ z :: rest)) = .ret b r)
    (hr : r ≠ -1) :
    r = l.length ∧ ∃ rs, Spec.IsSegments l rs ∧ Spec.cstr b = Spec.text rs := by
  obtain ⟨b', r', h1, _, _, _, h5⟩ :=
    signalListString_ok big l rest z hz hpos hmax hbig buf size hsz hlen
  rw [h] at h1
  cases h1
  rcases h5 with ⟨h2, rs, h3, h4⟩ | h2
  · refine ⟨h2, rs, h3, ?_⟩
    unfold Spec.cstr
    rw [h4, render_dropLast _ h3.ordered, String.ofList_toList]
  · exact absurd h2 hr

example : signalListString (2 ^ 31 - 1) (List.replicate 40 'x') 40
      (some [10, 12, 20, 21, 22, -1]) =
    .ret (" 10, 12, 20-22\x00\x00".toList ++ List.replicate 24 'x') 5 := by decide +kernel

/-! ### Where the code does not keep the promise -/

/-- `size = 0` (an empty buffer): the code stores `buf[0] = 0` before it looks at the
size (utils.c:59, 113), so the one-byte requirement of the theorems above is needed. -/
theorem C39_empty_buffer_ub (n : Nat) (set : Option (Nat → Bool)) :
    sigsetString n [] 0 set = .ub := rfl

/-- Two huge consecutive list members do not fit in the 15 bytes that are checked for one
item, so the list form writes past its buffer; the range requirement is needed. -/
theorem C39_huge_members_ub :
    signalListString (2 ^ 31 - 1) (List.replicate 15 'x') 15
      (some [2147483645, 2147483646, -1]) = .ub := by decide +kernel

end Libmonitor.Utils
