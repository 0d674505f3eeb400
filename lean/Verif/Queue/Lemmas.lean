import Verif.Queue.Spec

/-!
# Heap lemmas for the list macros
-/

namespace Libmonitor.Queue

open Spec

/-- The cell after the elements of `l`. -/
def lastCell : Cell → List Elem → Cell
  | c, [] => c
  | _, e :: l => lastCell (.next e) l

/-- Like `Chain` without the end. -/
def Part (H : Heap) : Cell → List Elem → Prop
  | _, [] => True
  | c, e :: l => H.cell c = some e ∧ H.alloc e = true ∧ H.prev e = c ∧ Part H (.next e) l

theorem chain_append (H : Heap) : ∀ (c : Cell) (l₁ l₂ : List Elem),
    Chain H c (l₁ ++ l₂) ↔ Part H c l₁ ∧ Chain H (lastCell c l₁) l₂
  | c, [], l₂ => by simp [Part, lastCell]
  | c, e :: l₁, l₂ => by
    simp only [List.cons_append, Chain, Part, lastCell, chain_append H (.next e) l₁ l₂]
    constructor
    · rintro ⟨a, b, d, f, g⟩; exact ⟨⟨a, b, d, f⟩, g⟩
    · rintro ⟨⟨a, b, d, f⟩, g⟩; exact ⟨a, b, d, f, g⟩

theorem lastCell_cases (c : Cell) : ∀ (l : List Elem),
    (l = [] ∧ lastCell c l = c) ∨ ∃ e ∈ l, lastCell c l = .next e
  | [] => .inl ⟨rfl, rfl⟩
  | e :: l => by
    rcases lastCell_cases (.next e) l with ⟨rfl, h⟩ | ⟨x, hx, h⟩
    · exact .inr ⟨e, by simp, h⟩
    · exact .inr ⟨x, by simp [hx], h⟩

theorem lastCell_next_eq (c : Cell) (l : List Elem) (x : Elem) (hc : c ≠ .next x)
    (h : lastCell c l = .next x) : x ∈ l := by
  rcases lastCell_cases c l with ⟨_, h'⟩ | ⟨e, he, h'⟩
  · exact absurd (h'.symm.trans h) hc
  · rw [h'] at h; cases h; exact he

theorem lastCell_head_eq (h h' : Nat) (l : List Elem)
    (e : lastCell (.head h) l = .head h') : h = h' := by
  rcases lastCell_cases (.head h) l with ⟨_, k⟩ | ⟨x, _, k⟩
  · rw [k] at e; cases e; rfl
  · rw [k] at e; cases e

/-- A chain only depends on its own cells. -/
theorem chain_frame {H H' : Heap} (ha : H'.alloc = H.alloc) : ∀ (c : Cell) (l : List Elem),
    H'.cell c = H.cell c → (∀ e ∈ l, H'.cell (.next e) = H.cell (.next e)) →
    (∀ e ∈ l, H'.prev e = H.prev e) → Chain H c l → Chain H' c l
  | c, [], hc, _, _, h => by simpa [Chain, hc] using h
  | c, e :: l, hc, hn, hp, h => by
    obtain ⟨h1, h2, h3, h4⟩ := h
    refine ⟨hc.trans h1, by rw [ha]; exact h2, (hp e (by simp)).trans h3, ?_⟩
    exact chain_frame ha _ l (hn e (by simp)) (fun x hx => hn x (by simp [hx]))
      (fun x hx => hp x (by simp [hx])) h4

theorem part_frame {H H' : Heap} (ha : H'.alloc = H.alloc) : ∀ (c : Cell) (l : List Elem),
    (∀ d, (∃ l₁ l₂, l = l₁ ++ l₂ ∧ l₂ ≠ [] ∧ d = lastCell c l₁) → H'.cell d = H.cell d) →
    (∀ e ∈ l, H'.prev e = H.prev e) → Part H c l → Part H' c l
  | _, [], _, _, _ => trivial
  | c, e :: l, hc, hp, h => by
    obtain ⟨h1, h2, h3, h4⟩ := h
    refine ⟨(hc c ⟨[], e :: l, rfl, by simp, rfl⟩).trans h1, by rw [ha]; exact h2,
      (hp e (by simp)).trans h3, ?_⟩
    refine part_frame ha _ l ?_ (fun x hx => hp x (by simp [hx])) h4
    rintro d ⟨l₁, l₂, rfl, hne, rfl⟩
    exact hc _ ⟨e :: l₁, l₂, rfl, hne, rfl⟩

/-- In a chain without repetition no proper prefix ends at the same cell. -/
theorem lastCell_inj (h : Nat) (l₁ l₂ : List Elem) (hn : (l₁ ++ l₂).Nodup) (hne : l₂ ≠ []) :
    lastCell (.head h) l₁ ≠ lastCell (.head h) (l₁ ++ l₂) := by
  intro e
  have key : ∀ (c : Cell) (l₁ : List Elem),
      lastCell c (l₁ ++ l₂) = lastCell (lastCell c l₁) l₂ := by
    intro c l₁
    induction l₁ generalizing c with
    | nil => rfl
    | cons a l ih => simpa [lastCell] using ih (.next a)
  rw [key] at e
  rcases lastCell_cases (lastCell (.head h) l₁) l₂ with ⟨h', _⟩ | ⟨x, hx, h'⟩
  · exact hne h'
  · rw [h'] at e
    have := lastCell_next_eq _ _ _ (by simp) e
    exact (List.nodup_append.1 hn).2.2 x this x hx rfl

theorem lastCell_append (c : Cell) (l₁ l₂ : List Elem) :
    lastCell c (l₁ ++ l₂) = lastCell (lastCell c l₁) l₂ := by
  induction l₁ generalizing c with
  | nil => rfl
  | cons a l ih => simpa [lastCell] using ih (.next a)

/-- The heap after inserting `e` behind cell `c`. -/
def insAt (c : Cell) (e : Elem) (H : Heap) : Heap where
  cell d := if d = c then some e else if d = .next e then H.cell c else H.cell d
  prev x := if x = e then c else if H.cell c = some x then .next e else H.prev x
  alloc := H.alloc

/-- The heap after unlinking `e`, which is behind cell `c`. -/
def remAt (c : Cell) (e : Elem) (H : Heap) : Heap where
  cell d := if d = c then H.cell (.next e) else H.cell d
  prev x := if H.cell (.next e) = some x then c else H.prev x
  alloc := H.alloc

/-- Everything one needs to know about the place of an insertion. -/
theorem chain_insAt {H : Heap} {h : Nat} {l₁ l₂ : List Elem} {e : Elem}
    (hc : Chain H (.head h) (l₁ ++ l₂)) (hn : (l₁ ++ l₂).Nodup) (he : e ∉ l₁ ++ l₂)
    (ha : H.alloc e = true) :
    Chain (insAt (lastCell (.head h) l₁) e H) (.head h) (l₁ ++ e :: l₂) := by
  rw [chain_append] at hc ⊢
  obtain ⟨hp, hs⟩ := hc
  have he1 : e ∉ l₁ := fun k => he (by simp [k])
  have he2 : e ∉ l₂ := fun k => he (by simp [k])
  have hd := (List.nodup_append.1 hn).2.2
  have hcne : lastCell (.head h) l₁ ≠ .next e := fun k =>
    he1 (lastCell_next_eq _ _ _ (by simp) k)
  refine ⟨?_, ?_⟩
  · refine part_frame (H := H) (H' := insAt (lastCell (.head h) l₁) e H)
        rfl _ _ ?_ ?_ hp
    · rintro d ⟨a, b, rfl, hb, rfl⟩
      have h1 : lastCell (.head h) a ≠ lastCell (.head h) (a ++ b) :=
        lastCell_inj h a b (List.nodup_append.1 hn).1 hb
      have h2 : lastCell (.head h) a ≠ .next e := fun k =>
        he1 (List.mem_append_left _ (lastCell_next_eq _ _ _ (by simp) k))
      simp [insAt, h1, h2]
    · intro x hx
      have h1 : x ≠ e := fun k => he1 (k ▸ hx)
      have h2 : H.cell (lastCell (.head h) l₁) ≠ some x := by
        intro k
        cases l₂ with
        | nil => simp [Chain] at hs; rw [hs] at k; cases k
        | cons y l₂ =>
          rw [hs.1] at k; cases k
          exact hd _ hx _ (by simp) rfl
      simp [insAt, h1, h2]
  · refine ⟨by simp [insAt], ha, by simp [insAt], ?_⟩
    have hcell : (insAt (lastCell (.head h) l₁) e H).cell (.next e) =
        H.cell (lastCell (.head h) l₁) := by simp [insAt, hcne.symm]
    cases l₂ with
    | nil => simpa [Chain, hcell] using hs
    | cons y l₂ =>
      obtain ⟨s1, s2, s3, s4⟩ := hs
      have hye : y ≠ e := fun k => he2 (by simp [k])
      refine ⟨hcell.trans s1, s2, by simp [insAt, s1, hye], ?_⟩
      have hn2 := (List.nodup_append.1 hn).2.1
      have fr : ∀ x ∈ y :: l₂, (insAt (lastCell (.head h) l₁) e H).cell (.next x) =
          H.cell (.next x) := by
        intro x hx
        have h1 : Cell.next x ≠ lastCell (.head h) l₁ := fun k =>
          hd x (lastCell_next_eq _ _ _ (by simp) k.symm) x hx rfl
        have h2 : x ≠ e := fun k => he2 (k ▸ hx)
        simp [insAt, h1, h2]
      refine chain_frame (H := H) (H' := insAt (lastCell (.head h) l₁) e H)
        rfl _ _ (fr y (by simp)) (fun x hx => fr x (by simp [hx]))
        ?_ s4
      intro x hx
      have h2 : x ≠ e := fun k => he2 (by simp [k ▸ hx])
      have h3 : y ≠ x := by rintro rfl; exact (List.nodup_cons.1 hn2).1 hx
      simp [insAt, h2, s1, h3]

theorem chain_remAt {H : Heap} {h : Nat} {l₁ l₂ : List Elem} {e : Elem}
    (hc : Chain H (.head h) (l₁ ++ e :: l₂)) (hn : (l₁ ++ e :: l₂).Nodup) :
    Chain (remAt (lastCell (.head h) l₁) e H) (.head h) (l₁ ++ l₂) := by
  rw [chain_append] at hc ⊢
  obtain ⟨hp, s1, s2, s3, s4⟩ := hc
  have hd := (List.nodup_append.1 hn).2.2
  have hn2 := (List.nodup_append.1 hn).2.1
  have he1 : e ∉ l₁ := fun k => hd _ k _ (by simp) rfl
  have he2 : e ∉ l₂ := (List.nodup_cons.1 hn2).1
  refine ⟨?_, ?_⟩
  · refine part_frame (H := H) (H' := remAt (lastCell (.head h) l₁) e H)
        rfl _ _ ?_ ?_ hp
    · rintro d ⟨a, b, rfl, hb, rfl⟩
      have h1 : lastCell (.head h) a ≠ lastCell (.head h) (a ++ b) :=
        lastCell_inj h a b (List.nodup_append.1 hn).1 hb
      simp [remAt, h1]
    · intro x hx
      have h2 : H.cell (.next e) ≠ some x := by
        intro k
        cases l₂ with
        | nil => simp [Chain] at s4; rw [s4] at k; cases k
        | cons y l₂ =>
          rw [s4.1] at k; cases k
          exact hd _ hx _ (by simp) rfl
      simp [remAt, h2]
  · have hcell : (remAt (lastCell (.head h) l₁) e H).cell (lastCell (.head h) l₁) =
        H.cell (.next e) := by simp [remAt]
    cases l₂ with
    | nil => simpa [Chain, hcell] using s4
    | cons y l₂ =>
      obtain ⟨t1, t2, t3, t4⟩ := s4
      refine ⟨hcell.trans t1, t2, by simp [remAt, t1], ?_⟩
      have hn3 := (List.nodup_cons.1 hn2).2
      have fr : ∀ x ∈ y :: l₂, (remAt (lastCell (.head h) l₁) e H).cell (.next x) =
          H.cell (.next x) := by
        intro x hx
        have h1 : Cell.next x ≠ lastCell (.head h) l₁ := fun k =>
          hd x (lastCell_next_eq _ _ _ (by simp) k.symm) x (by simp [hx]) rfl
        simp [remAt, h1]
      refine chain_frame (H := H) (H' := remAt (lastCell (.head h) l₁) e H)
        rfl _ _ (fr y (by simp)) (fun x hx => fr x (by simp [hx]))
        ?_ t4
      intro x hx
      have h3 : y ≠ x := by rintro rfl; exact (List.nodup_cons.1 hn3).1 hx
      simp [remAt, t1, h3]

/-- Another list is not affected by an insertion. -/
theorem chain_insAt_other {H : Heap} {h h' : Nat} {l₁ l₂ l' : List Elem} {e : Elem}
    (hc : Chain H (.head h) (l₁ ++ l₂)) (hne : h' ≠ h) (hc' : Chain H (.head h') l')
    (he : e ∉ l') (hd : ∀ x ∈ l', x ∉ l₁ ++ l₂) :
    Chain (insAt (lastCell (.head h) l₁) e H) (.head h') l' := by
  have hs := ((chain_append _ _ _ _).1 hc).2
  have h0 : Cell.head h' ≠ lastCell (.head h) l₁ := fun k =>
    hne (lastCell_head_eq _ _ _ k.symm).symm
  refine chain_frame (H := H) (H' := insAt (lastCell (.head h) l₁) e H)
        rfl _ _ (by simp [insAt, h0]) ?_ ?_ hc'
  · intro x hx
    have h1 : Cell.next x ≠ lastCell (.head h) l₁ := fun k =>
      hd x hx (by simp [lastCell_next_eq _ _ _ (by simp) k.symm])
    have h2 : x ≠ e := fun k => he (k ▸ hx)
    simp [insAt, h1, h2]
  · intro x hx
    have h2 : x ≠ e := fun k => he (k ▸ hx)
    have h3 : H.cell (lastCell (.head h) l₁) ≠ some x := by
      intro k
      cases l₂ with
      | nil => simp [Chain] at hs; rw [hs] at k; cases k
      | cons y l₂ => rw [hs.1] at k; cases k; exact hd _ hx (by simp)
    simp [insAt, h2, h3]

theorem chain_remAt_other {H : Heap} {h h' : Nat} {l₁ l₂ l' : List Elem} {e : Elem}
    (hc : Chain H (.head h) (l₁ ++ e :: l₂)) (hne : h' ≠ h) (hc' : Chain H (.head h') l')
    (hd : ∀ x ∈ l', x ∉ l₁ ++ e :: l₂) :
    Chain (remAt (lastCell (.head h) l₁) e H) (.head h') l' := by
  have hs := ((chain_append _ _ _ _).1 hc).2.2.2.2
  have h0 : Cell.head h' ≠ lastCell (.head h) l₁ := fun k =>
    hne (lastCell_head_eq _ _ _ k.symm).symm
  refine chain_frame (H := H) (H' := remAt (lastCell (.head h) l₁) e H)
        rfl _ _ (by simp [remAt, h0]) ?_ ?_ hc'
  · intro x hx
    have h1 : Cell.next x ≠ lastCell (.head h) l₁ := fun k =>
      hd x hx (by simp [lastCell_next_eq _ _ _ (by simp) k.symm])
    simp [remAt, h1]
  · intro x hx
    have h3 : H.cell (.next e) ≠ some x := by
      intro k
      cases l₂ with
      | nil => simp [Chain] at hs; rw [hs] at k; cases k
      | cons y l₂ => rw [hs.1] at k; cases k; exact hd _ hx (by simp)
    simp [remAt, h3]

theorem walk_chain (H : Heap) : ∀ (c : Cell) (l : List Elem), H.cellOk c = true →
    Chain H c l → walk H l.length c = some l
  | c, [], ok, h => by simp only [Chain] at h; simp [walk, Heap.load, ok, h]
  | c, e :: l, ok, h => by
    obtain ⟨h1, h2, h3, h4⟩ := h
    have ih := walk_chain H (.next e) l h2 h4
    simp [walk, Heap.load, ok, h1, ih]

theorem heap_ext {H H' : Heap} (h1 : H.cell = H'.cell) (h2 : H.prev = H'.prev)
    (h3 : H.alloc = H'.alloc) : H = H' := by
  cases H; cases H'; simp_all

/-- The order of the stores in the macros does not matter in a well-formed heap. -/
theorem insert_macro {H : Heap} {c : Cell} {e : Elem} (hc : H.cellOk c = true)
    (ha : H.alloc e = true) (hce : c ≠ .next e) (hf : ∀ f, H.cell c = some f → H.alloc f = true)
    (hfe : H.cell c ≠ some e) :
    (do
      let f ← H.load c
      let H ← H.store (.next e) f
      let H ← (match f with
        | none => some H
        | some f => H.storePrev f (.next e))
      let H ← H.store c (some e)
      H.storePrev e c) = some (insAt c e H) := by
  have l1 : H.load c = some (H.cell c) := by simp [Heap.load, hc]
  have l2 : H.store (.next e) (H.cell c) = some (H.setCell (.next e) (H.cell c)) := by
    simp [Heap.store, Heap.cellOk, ha]
  simp only [l1, l2, Option.bind_eq_bind, Option.bind_some]
  cases hcc : H.cell c with
  | none =>
    have l3 : (H.setCell (.next e) none).store c (some e) =
        some ((H.setCell (.next e) none).setCell c (some e)) := by
      have : (H.setCell (.next e) none).cellOk c = true := by
        cases c <;> simpa [Heap.cellOk, Heap.setCell] using hc
      simp [Heap.store, this]
    simp only [Option.bind_some, l3]
    have l4 : ((H.setCell (.next e) none).setCell c (some e)).alloc e = true := ha
    simp only [Heap.storePrev, l4, if_true]
    congr 1
    apply heap_ext
    · funext d; simp [insAt, Heap.setCell, Heap.setPrev, hcc]
    · funext x; simp [insAt, Heap.setCell, Heap.setPrev, hcc]
    · rfl
  | some f =>
    have hfa := hf f hcc
    have hne : f ≠ e := fun k => hfe (k ▸ hcc)
    have l3 : (H.setCell (.next e) (some f)).storePrev f (.next e) =
        some ((H.setCell (.next e) (some f)).setPrev f (.next e)) := by
      have : (H.setCell (.next e) (some f)).alloc f = true := hfa
      simp [Heap.storePrev, this]
    have l4 : ((H.setCell (.next e) (some f)).setPrev f (.next e)).store c (some e) =
        some (((H.setCell (.next e) (some f)).setPrev f (.next e)).setCell c (some e)) := by
      have : ((H.setCell (.next e) (some f)).setPrev f (.next e)).cellOk c = true := by
        cases c <;> simpa [Heap.cellOk, Heap.setCell, Heap.setPrev] using hc
      simp [Heap.store, this]
    have l5 : (((H.setCell (.next e) (some f)).setPrev f (.next e)).setCell c
        (some e)).alloc e = true := ha
    simp only [l3, Option.bind_some, l4]
    simp only [Heap.storePrev, l5, if_true]
    congr 1
    apply heap_ext
    · funext d; simp [insAt, Heap.setCell, Heap.setPrev, hcc]
    · funext x
      by_cases h1 : x = e
      · simp [insAt, Heap.setCell, Heap.setPrev, h1]
      · by_cases h2 : x = f
        · simp [insAt, Heap.setCell, Heap.setPrev, h1, h2, hcc]
        · simp [insAt, Heap.setCell, Heap.setPrev, h1, h2, hcc, Ne.symm h2]
    · rfl

theorem insertHead_eq {H : Heap} {h : Nat} {e : Elem} (ha : H.alloc e = true)
    (hf : ∀ f, H.cell (.head h) = some f → H.alloc f = true)
    (hfe : H.cell (.head h) ≠ some e) :
    insertHead h e H = some (insAt (.head h) e H) :=
  insert_macro (c := .head h) rfl ha (by simp) hf hfe

theorem insertAfter_eq {H : Heap} {x e : Elem} (hx : H.alloc x = true) (ha : H.alloc e = true)
    (hxe : x ≠ e) (hf : ∀ f, H.cell (.next x) = some f → H.alloc f = true)
    (hfe : H.cell (.next x) ≠ some e) :
    insertAfter x e H = some (insAt (.next x) e H) :=
  insert_macro (c := .next x) hx ha (by simpa using hxe) hf hfe

theorem insertBefore_eq {H : Heap} {c : Cell} {x e : Elem} (hx : H.alloc x = true)
    (ha : H.alloc e = true) (hxe : x ≠ e) (hp : H.prev x = c) (hc : H.cellOk c = true)
    (hcx : H.cell c = some x) (hce : c ≠ .next e) :
    insertBefore x e H = some (insAt c e H) := by
  subst hp
  have l1 : H.loadPrev x = some (H.prev x) := by simp [Heap.loadPrev, hx]
  have l2 : H.storePrev e (H.prev x) = some (H.setPrev e (H.prev x)) := by
    simp [Heap.storePrev, ha]
  have l3 : (H.setPrev e (H.prev x)).store (.next e) (some x) =
      some ((H.setPrev e (H.prev x)).setCell (.next e) (some x)) := by
    have : (H.setPrev e (H.prev x)).cellOk (.next e) = true := ha
    simp [Heap.store, this]
  have l4 : ((H.setPrev e (H.prev x)).setCell (.next e) (some x)).loadPrev x =
      some (H.prev x) := by
    have : ((H.setPrev e (H.prev x)).setCell (.next e) (some x)).alloc x = true := hx
    simp only [Heap.loadPrev, this, if_true]
    simp [Heap.setPrev, Heap.setCell, hxe]
  have l5 : ((H.setPrev e (H.prev x)).setCell (.next e) (some x)).store (H.prev x) (some e) =
      some (((H.setPrev e (H.prev x)).setCell (.next e) (some x)).setCell (H.prev x)
        (some e)) := by
    have : ((H.setPrev e (H.prev x)).setCell (.next e) (some x)).cellOk (H.prev x) = true := by
      generalize H.prev x = c at hc ⊢
      cases c <;> simpa [Heap.cellOk, Heap.setCell, Heap.setPrev] using hc
    simp [Heap.store, this]
  have l6 : (((H.setPrev e (H.prev x)).setCell (.next e) (some x)).setCell (H.prev x)
      (some e)).alloc x = true := hx
  unfold insertBefore
  simp only [l1, l2, l3, l4, l5, Option.bind_eq_bind, Option.bind_some]
  simp only [Heap.storePrev, l6, if_true]
  congr 1
  apply heap_ext
  · funext d
    by_cases h1 : d = H.prev x
    · simp [insAt, Heap.setCell, Heap.setPrev, h1]
    · by_cases h2 : d = .next e <;> simp [insAt, Heap.setCell, Heap.setPrev, h1, h2, hcx]
  · funext y
    by_cases h1 : y = e
    · subst h1; simp [insAt, Heap.setCell, Heap.setPrev, Ne.symm hxe]
    · by_cases h2 : y = x
      · simp [insAt, Heap.setCell, Heap.setPrev, hcx, h2, hxe]
      · simp [insAt, Heap.setCell, Heap.setPrev, h1, h2, hcx, Ne.symm h2]
  · rfl

theorem remove_eq {H : Heap} {c : Cell} {e : Elem} (ha : H.alloc e = true)
    (hp : H.prev e = c) (hc : H.cellOk c = true)
    (hf : ∀ f, H.cell (.next e) = some f → H.alloc f = true)
    (hfe : H.cell (.next e) ≠ some e) :
    remove e H = some (remAt c e H) := by
  subst hp
  have l1 : H.load (.next e) = some (H.cell (.next e)) := by simp [Heap.load, Heap.cellOk, ha]
  have l2 : H.loadPrev e = some (H.prev e) := by simp [Heap.loadPrev, ha]
  unfold remove
  simp only [l1, l2, Option.bind_eq_bind, Option.bind_some]
  cases hn : H.cell (.next e) with
  | none =>
    simp only [Option.bind_some, l2, l1, hn, Heap.store, hc, if_true]
    congr 1
    apply heap_ext
    · funext d; simp [remAt, Heap.setCell, hn]
    · funext x; simp [remAt, Heap.setCell, hn]
    · rfl
  | some f =>
    have hfa := hf f hn
    have hne : f ≠ e := fun k => hfe (k ▸ hn)
    have l3 : H.storePrev f (H.prev e) = some (H.setPrev f (H.prev e)) := by
      simp [Heap.storePrev, hfa]
    have l4 : (H.setPrev f (H.prev e)).loadPrev e = some (H.prev e) := by
      have : (H.setPrev f (H.prev e)).alloc e = true := ha
      simp only [Heap.loadPrev, this, if_true]
      simp [Heap.setPrev, Ne.symm hne]
    have l5 : (H.setPrev f (H.prev e)).load (.next e) = some (some f) := by
      have : (H.setPrev f (H.prev e)).cellOk (.next e) = true := ha
      simp only [Heap.load, this, if_true]
      exact congrArg some hn
    have l6 : (H.setPrev f (H.prev e)).cellOk (H.prev e) = true := by
      generalize H.prev e = c at hc ⊢
      cases c <;> simpa [Heap.cellOk, Heap.setCell, Heap.setPrev] using hc
    simp only [l3, Option.bind_some, l4, l5, Heap.store, l6, if_true]
    congr 1
    apply heap_ext
    · funext d; simp [remAt, Heap.setCell, Heap.setPrev, hn]
    · funext x
      by_cases h2 : x = f
      · simp [remAt, Heap.setCell, Heap.setPrev, hn, h2]
      · simp [remAt, Heap.setCell, Heap.setPrev, hn, h2, Ne.symm h2]
    · rfl

/-- The elements of a chain are allocated. -/
theorem chain_alloc {H : Heap} : ∀ {c : Cell} {l : List Elem}, Chain H c l →
    ∀ x ∈ l, H.alloc x = true
  | _, [], _, x, hx => by simp at hx
  | _, e :: l, h, x, hx => by
    rcases List.mem_cons.1 hx with rfl | hx
    · exact h.2.1
    · exact chain_alloc h.2.2.2 x hx

theorem chain_first {H : Heap} {c : Cell} {l : List Elem} (h : Chain H c l) :
    H.cell c = l.head? := by
  cases l with
  | nil => simpa [Chain] using h
  | cons e l => simpa using h.1

theorem cellOk_lastCell {H : Heap} {h : Nat} {l₁ l₂ : List Elem}
    (hc : Chain H (.head h) (l₁ ++ l₂)) : H.cellOk (lastCell (.head h) l₁) = true := by
  rcases lastCell_cases (.head h) l₁ with ⟨_, k⟩ | ⟨x, hx, k⟩
  · rw [k]; rfl
  · rw [k]; exact chain_alloc hc x (by simp [hx])

end Libmonitor.Queue
