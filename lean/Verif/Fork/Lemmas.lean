import Verif.Fork.Spec

/-!
# Helper lemmas for fork.c
-/

namespace Libmonitor.Fork

@[simp] theorem bind_ret {α β} (a : α) (f : α → Res β) : (Res.ret a >>= f) = f a := rfl
@[simp] theorem bind_ub {α β} (f : α → Res β) : ((Res.ub : Res α) >>= f) = .ub := rfl
@[simp] theorem bind_err {α β} (f : α → Res β) : ((Res.err : Res α) >>= f) = .err := rfl

theorem store_lt {α} {buf : List α} {i : Nat} (a : α) (h : i < buf.length) :
    store buf i a = .ret (buf.set i a) := by simp [store, h]

/-! ## Environment copy -/

theorem contains_iff (pat s : Str) : contains pat s = true ↔ Spec.Occurs pat s := by
  induction s with
  | nil =>
    simp only [contains, List.isPrefixOf_iff_prefix, List.prefix_nil]
    constructor
    · rintro rfl; exact ⟨[], [], rfl⟩
    · rintro ⟨a, b, h⟩; simp at h; exact h.2.1
  | cons c s ih =>
    simp only [contains, Bool.or_eq_true, List.isPrefixOf_iff_prefix, ih]
    constructor
    · rintro (⟨b, h⟩ | ⟨a, b, h⟩)
      · exact ⟨[], b, by simpa using h.symm⟩
      · exact ⟨c :: a, b, by simp [h]⟩
    · rintro ⟨a, b, h⟩
      cases a with
      | nil => left; exact ⟨b, by simpa using h.symm⟩
      | cons d a =>
        simp only [List.cons_append, List.cons.injEq] at h
        right; exact ⟨a, b, h.2⟩

theorem countEnv_holds (l : List Str) (tail : List Ptr) :
    countEnv (l.map some ++ none :: tail) = .ret l.length := by
  induction l with
  | nil => rfl
  | cons s l ih => simp [countEnv, ih]

theorem set_append_length {α} (a b : List α) (x : α) (y : α) :
    (a ++ y :: b).set a.length x = a ++ x :: b := by
  induction a with
  | nil => rfl
  | cons c a ih => simp [ih]

theorem copyEnv_holds (l : List Str) (tail : List Ptr) (pre rest : List Ptr)
    (h : l.length < rest.length) :
    ∃ r', copyEnv (pre ++ rest) pre.length (l.map some ++ none :: tail) =
      .ret (pre ++ ((l.filter fun s => !contains ldPreload s).map some) ++ none :: r') ∧
      pre.length + (l.filter fun s => !contains ldPreload s).length + 1 + r'.length =
        pre.length + rest.length := by
  induction l generalizing pre rest with
  | nil =>
    cases rest with
    | nil => simp at h
    | cons y rest =>
      refine ⟨rest, ?_, by simp; omega⟩
      simp only [List.map_nil, List.nil_append, copyEnv]
      rw [store_lt _ (by simp), set_append_length]
      simp
  | cons s l ih =>
    simp only [List.map_cons, List.cons_append, copyEnv]
    by_cases hc : contains ldPreload s = true
    · rw [if_pos hc]
      obtain ⟨r', h1, h2⟩ := ih pre rest (by simp at h; omega)
      refine ⟨r', ?_, ?_⟩
      · rw [h1]; simp [hc]
      · simpa [hc] using h2
    · rw [if_neg hc]
      cases rest with
      | nil => simp at h
      | cons y rest =>
        rw [store_lt _ (by simp), set_append_length]
        obtain ⟨r', h1, h2⟩ := ih (pre ++ [some s]) rest (by simp at h; omega)
        refine ⟨r', ?_, ?_⟩
        · simp only [bind_ret]
          have e1 : pre ++ some s :: rest = pre ++ [some s] ++ rest := by simp
          have e2 : pre.length + 1 = (pre ++ [some s]).length := by simp
          rw [e1, e2, h1]; simp [hc]
        · simp only [List.length_append, List.length_singleton] at h2
          simp [hc]; omega

theorem pageSize_neg : pageSize (-1) = 2 ^ 64 - 1 := by decide

theorem pageSize_pos (sc : Int) (h1 : 0 ≤ sc) (h2 : sc < 2 ^ 62) :
    0 < pageSize sc ∧ pageSize sc < 2 ^ 62 := by
  unfold pageSize
  simp only
  split <;> omega

theorem mapSize_pos (n : Nat) (sc : Int) (hn : n * 8 < 2 ^ 62) (hn0 : 0 < n)
    (h1 : 0 ≤ sc) (h2 : sc < 2 ^ 62) : n * 8 ≤ mapSize n sc := by
  unfold mapSize
  obtain ⟨p1, p2⟩ := pageSize_pos sc h1 h2
  generalize pageSize sc = p at p1 p2
  simp only [word]
  rw [Nat.mod_eq_of_lt (show n * 8 < 2 ^ 64 by omega)]
  have a1 := Nat.div_add_mod (n * 8 + p - 1) p
  have a2 := Nat.mod_lt (n * 8 + p - 1) p1
  rw [Nat.mul_comm] at a1
  rw [Nat.mod_eq_of_lt (show n * 8 + p - 1 < 2 ^ 64 by omega)]
  rw [Nat.mod_eq_of_lt (by omega)]
  omega

/-- With a failing sysconf the size wraps to 0 (and then mmap fails). -/
theorem mapSize_neg (n : Nat) (hn : n * 8 < 2 ^ 62) (hn0 : 0 < n) : mapSize n (-1) = 0 := by
  unfold mapSize
  rw [pageSize_neg]
  simp only [word]
  rw [Nat.mod_eq_of_lt (show n * 8 < 2 ^ 64 by omega)]
  have : (n * 8 + (2 ^ 64 - 1) - 1) % 2 ^ 64 = n * 8 - 2 := by omega
  rw [this, Nat.div_eq_of_lt (by omega)]

theorem copyEnviron_spec (oldenv : List Ptr) (l : List Str) (hold : Spec.Holds oldenv l)
    (sc : Int) (mmapOk : Bool) (static : List Ptr) (hst : static.length = initEnvironSize)
    (hl : l.length < 2 ^ 32) (hsc : sc = -1 ∨ (0 ≤ sc ∧ sc < 2 ^ 62)) :
    (∃ new, copyEnviron oldenv sc mmapOk static = .ret new ∧
      Spec.Holds new (l.filter fun s => !contains ldPreload s)) ∨
    (copyEnviron oldenv sc mmapOk static = .err ∧ initEnvironSize < l.length + 2 ∧
      (mmapOk = false ∨ sc = -1)) := by
  obtain ⟨tail, rfl⟩ := hold
  unfold copyEnviron
  rw [countEnv_holds]
  simp only [bind_ret, envBuffer]
  by_cases hb : l.length + 2 > initEnvironSize
  · rw [if_pos hb]
    by_cases hf : mapSize (l.length + 2) sc = 0 ∨ mmapOk = false
    · right
      rw [if_pos hf]
      refine ⟨rfl, hb, ?_⟩
      rcases hf with hf | hf
      · right
        rcases hsc with h | ⟨h1, h2⟩
        · exact h
        · have := mapSize_pos (l.length + 2) sc (by omega) (by omega) h1 h2
          omega
      · left; exact hf
    · left
      rw [if_neg hf]
      simp only [bind_ret]
      have hroom' : (l.length + 2) * 8 ≤ mapSize (l.length + 2) sc := by
        rcases hsc with h | ⟨h1, h2⟩
        · subst h
          exact absurd (Or.inl (mapSize_neg _ (by omega) (by omega))) hf
        · exact mapSize_pos _ _ (by omega) (by omega) h1 h2
      obtain ⟨r', h1, _⟩ := copyEnv_holds l tail []
        (List.replicate (mapSize (l.length + 2) sc / 8) none) (by simp; omega)
      simp only [List.nil_append, List.length_nil] at h1
      exact ⟨_, h1, r', rfl⟩
  · left
    rw [if_neg hb]
    simp only [bind_ret]
    obtain ⟨r', h1, _⟩ := copyEnv_holds l tail [] static (by omega)
    simp only [List.nil_append, List.length_nil] at h1
    exact ⟨_, h1, r', rfl⟩

/-! ## Variadic arguments -/

theorem vaLoop_spec (junk : Ptr) (l : List Str) (rest : List Ptr) (pre tail : List Ptr)
    (mallocs : Nat → Bool) (hpos : 1 ≤ pre.length)
    (h1 : pre.length ≤ (pre ++ tail).length) :
    (∃ t, vaLoop junk (pre ++ tail) pre.length (pre ++ tail).length mallocs
        (l.map some ++ none :: rest) = .ret (pre ++ l.map some ++ none :: t, rest)) ∨
    (vaLoop junk (pre ++ tail) pre.length (pre ++ tail).length mallocs
        (l.map some ++ none :: rest) = .err ∧ ∃ k, mallocs k = false) := by
  induction l generalizing pre tail mallocs with
  | nil =>
    simp only [List.map_nil, List.nil_append, vaLoop]
    cases tail with
    | nil =>
      rw [if_pos (by simp)]
      by_cases hm : mallocs 0 = true
      · left
        rw [if_pos hm, if_pos (by simp; omega)]
        simp only [bind_ret]
        rw [store_lt _ (by simp; omega)]
        simp only [bind_ret]
        have : (pre ++ []).length * 2 - pre.length = (pre.length - 1) + 1 := by simp; omega
        rw [this, List.replicate_succ, List.append_nil, List.take_length, set_append_length]
        exact ⟨List.replicate (pre.length - 1) junk, by simp⟩
      · right; rw [if_neg hm]; exact ⟨rfl, 0, by simpa using hm⟩
    | cons y tail =>
      left
      rw [if_neg (by simp)]
      simp only [bind_ret]
      rw [store_lt _ (by simp), set_append_length]
      exact ⟨tail, by simp⟩
  | cons s l ih =>
    simp only [List.map_cons, List.cons_append, vaLoop]
    cases tail with
    | nil =>
      rw [if_pos (by simp)]
      by_cases hm : mallocs 0 = true
      · rw [if_pos hm, if_pos (by simp; omega)]
        simp only [bind_ret]
        rw [store_lt _ (by simp; omega)]
        simp only [bind_ret]
        have e : (pre ++ []).length * 2 - pre.length = (pre.length - 1) + 1 := by simp; omega
        rw [e, List.replicate_succ, List.append_nil, List.take_length, set_append_length]
        have := ih (pre ++ [some s]) (List.replicate (pre.length - 1) junk)
          (fun k => mallocs (k + 1)) (by simp) (by simp)
        have e3 : pre ++ [some s] ++ List.replicate (pre.length - 1) junk =
            pre ++ some s :: List.replicate (pre.length - 1) junk := by simp
        have e4 : (pre ++ [some s]).length = pre.length + 1 := by simp
        have e5 : (pre ++ some s :: List.replicate (pre.length - 1) junk).length =
            pre.length * 2 := by simp; omega
        rw [e3, e4, e5] at this
        rcases this with ⟨t, ht⟩ | ⟨he, k, hk⟩
        · left; exact ⟨t, by rw [ht]; simp⟩
        · right; exact ⟨he, k + 1, hk⟩
      · right; rw [if_neg hm]; exact ⟨rfl, 0, by simpa using hm⟩
    | cons y tail =>
      rw [if_neg (by simp)]
      simp only [bind_ret]
      rw [store_lt _ (by simp), set_append_length]
      simp only [bind_ret]
      have := ih (pre ++ [some s]) tail mallocs (by simp) (by simp)
      have e3 : pre ++ [some s] ++ tail = pre ++ some s :: tail := by simp
      have e4 : (pre ++ [some s]).length = pre.length + 1 := by simp
      have e5 : (pre ++ some s :: tail).length = (pre ++ y :: tail).length := by simp
      rw [e3, e4, e5] at this
      rcases this with ⟨t, ht⟩ | h
      · left; exact ⟨t, by rw [ht]; simp⟩
      · right; exact h

/-! ## PATH search -/

/-- The search as a loop over a list of elements. -/
def searchList (access : Str → Bool) (file : Str) : List Str → Res Bool
  | [] => .ret false
  | e :: es =>
    if e.length + file.length + 2 > pathMax then .ub
    else if access (e ++ '/' :: file) then .ret true
    else searchList access file es

theorem split_ne_nil (p : Str) : Spec.split p ≠ [] := by
  cases p with
  | nil => simp [Spec.split]
  | cons c s =>
    simp only [Spec.split]
    split
    · simp
    · split <;> simp

theorem split_cons_ne (c : Char) (s : Str) (h : c ≠ ':') :
    ∃ e es, Spec.split s = e :: es ∧ Spec.split (c :: s) = (c :: e) :: es := by
  cases hs : Spec.split s with
  | nil => exact absurd hs (split_ne_nil s)
  | cons e es => exact ⟨e, es, rfl, by simp [Spec.split, h, hs]⟩

/-- The non-empty elements. -/
def parts (p : Str) : List Str := (Spec.split p).filter (· ≠ [])

theorem parts_colon (s : Str) : parts (':' :: s) = parts s := by
  simp [parts, Spec.split]

theorem parts_skip (p : Str) : parts (skipColons p) = parts p := by
  induction p with
  | nil => rfl
  | cons c s ih =>
    by_cases h : c = ':'
    · subst h; rw [parts_colon, ← ih]; simp [skipColons]
    · simp [skipColons, h]

/-- First element and the rest of a non-empty PATH that does not start with a colon. -/
theorem split_take (p : Str) : ∃ es, Spec.split p = p.takeWhile (· != ':') :: es ∧
    es.filter (· ≠ []) = parts (p.dropWhile (· != ':')) := by
  induction p with
  | nil => exact ⟨[], rfl, rfl⟩
  | cons c s ih =>
    by_cases h : c = ':'
    · subst h
      refine ⟨Spec.split s, by simp [Spec.split], ?_⟩
      simp [parts, Spec.split]
    · obtain ⟨e, es, h1, h2⟩ := split_cons_ne c s h
      obtain ⟨es', h3, h4⟩ := ih
      rw [h1] at h3
      cases h3
      refine ⟨es, ?_, ?_⟩
      · rw [h2]; simp [h]
      · rw [h4]; simp [h]

theorem skipColons_length (p : Str) : (skipColons p).length ≤ p.length :=
  (List.dropWhile_sublist _).length_le

theorem skipColons_head (p : Str) : ∀ c s, skipColons p = c :: s → c ≠ ':' := by
  induction p with
  | nil => intro c s h; simp [skipColons] at h
  | cons d p ih =>
    intro c s h
    by_cases hd : d = ':'
    · subst hd; exact ih c s (by simpa [skipColons] using h)
    · simp [skipColons, hd] at h; rw [← h.1]; exact hd

theorem searchLoop_eq (access : Str → Bool) (file : Str) (fuel : Nat) (p : Str)
    (hf : p.length < fuel) (hh : ∀ c s, p = c :: s → c ≠ ':') :
    searchLoop access file fuel p = searchList access file (parts p) := by
  induction fuel generalizing p with
  | zero => omega
  | succ fuel ih =>
    unfold searchLoop
    cases p with
    | nil => simp [parts, Spec.split, searchList]
    | cons c s =>
      have hc := hh c s rfl
      obtain ⟨es, h1, h2⟩ := split_take (c :: s)
      have hne : (c :: s).takeWhile (· != ':') = c :: s.takeWhile (· != ':') := by
        simp [hc]
      have hp : parts (c :: s) = (c :: s).takeWhile (· != ':') ::
          parts ((c :: s).dropWhile (· != ':')) := by
        unfold parts
        rw [h1, List.filter_cons_of_pos (by rw [hne]; simp), h2]
        rfl
      rw [hp, if_neg (by simp)]
      simp only [searchList]
      have hlen : (skipColons ((c :: s).dropWhile (· != ':'))).length < fuel := by
        have a := skipColons_length ((c :: s).dropWhile (· != ':'))
        have b : (c :: s).dropWhile (· != ':') = s.dropWhile (· != ':') := by simp [hc]
        have d := (List.dropWhile_sublist (· != ':') (l := s)).length_le
        rw [b] at a
        rw [b]
        simp at hf; omega
      rw [ih _ hlen (fun c s => skipColons_head _ c s), parts_skip]

theorem searchList_fit (access : Str → Bool) (file : Str) (es : List Str)
    (h : ∀ e ∈ es, e.length + file.length + 2 ≤ pathMax) :
    searchList access file es = .ret (es.any fun e => access (e ++ '/' :: file)) := by
  induction es with
  | nil => rfl
  | cons e es ih =>
    simp only [searchList]
    rw [if_neg (by have := h e (by simp); omega), ih (fun x hx => h x (by simp [hx]))]
    by_cases ha : access (e ++ '/' :: file) = true
    · simp [ha]
    · simp [ha]

/-! ## system() from several threads -/

end Libmonitor.Fork
