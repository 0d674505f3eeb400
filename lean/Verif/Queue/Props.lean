import Verif.Queue.Lemmas2

/-!
# C24: the list macros implement lists
-/

namespace Libmonitor.Queue

open Spec

/-- A heap with the given allocated elements, all heads empty and garbage in the
fields (every `le_next` is `some 7`, every `le_prev` points to head 99). -/
def garbage (alloc : Elem → Bool) : Heap where
  cell c := match c with | .head _ => none | .next _ => some 7
  prev _ := .head 99
  alloc := alloc

/-- **C24.**  Inserting at the head, in any heap that represents lists: never touches
unallocated memory, conses exactly the element on exactly that list, keeps all other lists
(and all links) intact and writes to nothing outside of that list and the element. -/
theorem C24_insert_head (H : Heap) (L : Lists) (h : Nat) (e : Elem) (R : Represents H L)
    (hnew : ∀ h', e ∉ L h') (ha : H.alloc e = true) :
    ∃ H', insertHead h e H = some H' ∧
      Represents H' (fun h' => if h' = h then e :: L h else L h') ∧
      OnlyTouches H H' h (e :: L h) := by
  have hc := R.chain h
  have hf := chain_first hc
  refine ⟨insAt (.head h) e H, ?_, ?_, ?_⟩
  · refine insertHead_eq ha ?_ ?_
    · intro f k
      rw [hf] at k
      exact chain_alloc hc f (List.mem_of_mem_head? (Option.mem_def.2 k))
    · rw [hf]
      intro k
      exact hnew h (List.mem_of_mem_head? (Option.mem_def.2 k))
  · exact represents_insAt (l₁ := []) R rfl (fun ⟨h', k⟩ => hnew h' k) ha
  · exact insAt_touches (l₁ := []) hc

/-- **C24.**  Removing an element, wherever it is in whichever list: erases exactly it,
keeps the order of the others and all other lists, and writes to nothing outside of
that list. -/
theorem C24_remove (H : Heap) (L : Lists) (h : Nat) (e : Elem) (R : Represents H L)
    (he : e ∈ L h) :
    ∃ H', remove e H = some H' ∧
      Represents H' (fun h' => if h' = h then (L h).erase e else L h') ∧
      OnlyTouches H H' h (L h) := by
  have ha := chain_alloc (R.chain h) e he
  obtain ⟨l₁, l₂, hl, hx1⟩ := split_mem he (R.nodup h)
  obtain ⟨H', h', e1, R1, _, _⟩ := exec_ok R (.remove e) ⟨h, he⟩ (by simpa [elems] using ha)
  have hc' : Chain H (.head h) (l₁ ++ e :: l₂) := hl ▸ R.chain h
  obtain ⟨hs1, hs2, hs3, hs4⟩ := ((chain_append _ _ _ _).1 hc').2
  have hf := chain_first hs4
  have hrem : remove e H = some (remAt (lastCell (.head h) l₁) e H) := by
    refine remove_eq ha hs3 (cellOk_lastCell hc') ?_ ?_
    · intro f k
      rw [hf] at k
      exact chain_alloc hs4 f (List.mem_of_mem_head? (Option.mem_def.2 k))
    · rw [hf]
      intro k
      have hn := R.nodup h
      rw [hl] at hn
      exact (List.nodup_cons.1 (List.nodup_append.1 hn).2.1).1
        (List.mem_of_mem_head? (Option.mem_def.2 k))
  refine ⟨_, hrem, ?_, ?_⟩
  · have := represents_remAt R hl
    rw [← erase_split hx1, ← hl] at this
    exact this
  · have := remAt_touches hc'
    rw [← hl] at this
    exact this

/-- **C24.**  LIST_INIT empties exactly one list. -/
theorem C24_init (H : Heap) (L : Lists) (h : Nat) (R : Represents H L) :
    ∃ H', init h H = some H' ∧ Represents H' (fun h' => if h' = h then [] else L h') ∧
      OnlyTouches H H' h [] := by
  obtain ⟨H', h', e1, R1, T, _⟩ := exec_ok R (.init h) trivial (by simp [elems])
  refine ⟨H', e1, R1, ?_⟩
  have : H' = H.setCell (.head h) none := by
    simp only [exec, init, Heap.store, Heap.cellOk, if_true, Option.some.injEq] at e1
    exact e1.symm
  subst this
  exact ⟨rfl, fun h' k => by simp [Heap.setCell, k], fun x _ => by simp [Heap.setCell],
    fun _ _ => rfl⟩

/-- **C24.**  What an observer sees: walking a represented list visits its elements in order
and ends. -/
theorem C24_walk (H : Heap) (L : Lists) (h : Nat) (R : Represents H L) :
    walk H (L h).length (.head h) = some (L h) :=
  holds_of_represents R h

/-- **C24.**  Histories, stated without any pointer: starting with empty heads and arbitrary
garbage in the elements, every history of correct uses of the macros is free of undefined
behaviour, and afterwards walking any list sees what the same history does to mathematical
lists. -/
theorem C24_history (os : List Op) (H : Heap) (hempty : ∀ h, H.cell (.head h) = none)
    (hok : AllowedAll os (fun _ => [])) (ha : ∀ o ∈ os, ∀ e ∈ elems o, H.alloc e = true) :
    ∃ H', run os H = some H' ∧ Holds H' (effects os (fun _ => [])) := by
  have R : Represents H (fun _ => []) :=
    ⟨fun h => hempty h, fun _ => by simp, fun _ _ _ _ hx => by simp at hx⟩
  obtain ⟨H', e1, R'⟩ := run_ok os R hok ha
  exact ⟨H', e1, holds_of_represents R'⟩

theorem effect_mem {o : Op} {L : Lists} {h : Nat} {x : Elem} (hx : x ∈ effect o L h) :
    x ∈ L h ∨ x ∈ elems o := by
  have pa : ∀ (a b : Elem) (l : List Elem), x ∈ putAfter a b l → x ∈ l ∨ x = b := by
    intro a b l
    induction l with
    | nil => simp [putAfter]
    | cons c l ih =>
      by_cases k : c = a
      · simp only [putAfter, k, if_true, List.mem_cons]
        rintro (h | h | h) <;> simp [h]
      · simp only [putAfter, k, if_false, List.mem_cons]
        rintro (h | h)
        · simp [h]
        · rcases ih h with h | h <;> simp [h]
  have pb : ∀ (a b : Elem) (l : List Elem), x ∈ putBefore a b l → x ∈ l ∨ x = b := by
    intro a b l
    induction l with
    | nil => simp [putBefore]
    | cons c l ih =>
      by_cases k : c = a
      · simp only [putBefore, k, if_true, List.mem_cons]
        rintro (h | h | h) <;> simp [h]
      · simp only [putBefore, k, if_false, List.mem_cons]
        rintro (h | h)
        · simp [h]
        · rcases ih h with h | h <;> simp [h]
  cases o with
  | init h' =>
    by_cases k : h = h'
    · simp [effect, upd, k] at hx
    · simp [effect, upd, k] at hx; exact .inl hx
  | insertHead h' e =>
    by_cases k : h = h'
    · subst k
      simp only [effect, upd, if_true, List.mem_cons] at hx
      rcases hx with rfl | hx
      · simp [elems]
      · exact .inl hx
    · simp [effect, upd, k] at hx; exact .inl hx
  | insertAfter a b => rcases pa a b _ hx with h | h <;> simp [elems, h]
  | insertBefore a b => rcases pb a b _ hx with h | h <;> simp [elems, h]
  | remove e => exact .inl (List.mem_of_mem_erase hx)

/-- **C24.**  An element that a history never mentions keeps its memory. -/
theorem C24_history_frame (os : List Op) (H H' : Heap)
    (hempty : ∀ h, H.cell (.head h) = none) (hok : AllowedAll os (fun _ => []))
    (ha : ∀ o ∈ os, ∀ e ∈ elems o, H.alloc e = true) (hr : run os H = some H') (x : Elem)
    (hx : ∀ o ∈ os, x ∉ elems o) :
    H'.cell (.next x) = H.cell (.next x) ∧ H'.prev x = H.prev x ∧ H'.alloc = H.alloc := by
  have key : ∀ (os : List Op) (H : Heap) (L : Lists), Represents H L → AllowedAll os L →
      (∀ o ∈ os, ∀ e ∈ elems o, H.alloc e = true) → run os H = some H' →
      (∀ o ∈ os, x ∉ elems o) → (∀ h, x ∉ L h) →
      H'.cell (.next x) = H.cell (.next x) ∧ H'.prev x = H.prev x ∧ H'.alloc = H.alloc := by
    intro os
    induction os with
    | nil => intro H L _ _ _ hr _ _; simp only [run, Option.some.injEq] at hr; simp [hr]
    | cons o os ih =>
      intro H L R hok ha hr hx hL
      obtain ⟨H1, h, e1, R1, T, _⟩ := exec_ok R o hok.1 (ha o (by simp))
      simp only [run, e1, Option.bind_some] at hr
      have hL1 : ∀ h, x ∉ effect o L h := fun h k => by
        rcases effect_mem k with k | k
        · exact hL h k
        · exact hx o (by simp) k
      obtain ⟨a, b, c⟩ := ih H1 _ R1 hok.2 (fun o' ho e he => by
        rw [T.alloc]; exact ha o' (by simp [ho]) e he) hr (fun o' ho => hx o' (by simp [ho])) hL1
      have hn : x ∉ elems o ++ L h := by
        simp only [List.mem_append, not_or]
        exact ⟨hx o (by simp), hL h⟩
      exact ⟨a.trans (T.next x hn), b.trans (T.prev x hn), c.trans T.alloc⟩
  exact key os H (fun _ => []) ⟨fun h => hempty h, fun _ => by simp, fun _ _ _ _ hx => by simp at hx⟩ hok ha
    hr hx (by simp)

/-- The hypotheses of the history theorem: two lists (threads 0, free 1), an element moved
from one to the other, removal from the middle. -/
def sampleOps : List Op :=
  [.init 0, .init 1, .insertHead 0 10, .insertHead 0 11, .insertHead 0 12, .remove 11,
   .insertHead 1 11, .insertAfter 12 13, .insertBefore 12 14, .remove 10, .insertHead 1 10]

example : AllowedAll sampleOps (fun _ => []) := by
  have w : ∀ (L : Lists) (h : Nat) (e : Elem), e ∈ L h → OnList L e := fun L h e k => ⟨h, k⟩
  refine ⟨trivial, trivial, ?_, ?_, ?_, w _ 0 _ (by decide), ?_, ⟨w _ 0 _ (by decide), ?_⟩,
    ⟨w _ 0 _ (by decide), ?_⟩, w _ 0 _ (by decide), ?_, trivial⟩ <;>
  · rintro ⟨h, k⟩
    rcases Nat.lt_or_ge h 2 with hh | hh
    · have : h = 0 ∨ h = 1 := by omega
      rcases this with rfl | rfl <;> exact absurd k (by decide)
    · have h0 : h ≠ 0 := by omega
      have h1 : h ≠ 1 := by omega
      simp [effect, upd, h0, h1, putAfter, putBefore] at k

example : (run sampleOps (garbage fun e => decide (10 ≤ e ∧ e ≤ 14))).bind
    (fun H => walk H 5 (.head 0)) = some [14, 12, 13] := by decide +kernel
example : (run sampleOps (garbage fun e => decide (10 ≤ e ∧ e ≤ 14))).bind
    (fun H => walk H 5 (.head 1)) = some [10, 11] := by decide +kernel

/-- The conditions on correct use are needed: removing an element a second time, after
another one was put at the head, loses that other element. -/
theorem C24_double_remove_corrupts :
    (run [.insertHead 0 10, .insertHead 0 11, .remove 11, .insertHead 0 12, .remove 11]
      (garbage fun _ => true)).bind (fun H => walk H 5 (.head 0)) = some [10] := by
  decide +kernel

/-- Inserting an element a second time makes the list cyclic: the walk never ends. -/
theorem C24_double_insert_cycles (n : Nat) :
    (run [.insertHead 0 10, .insertHead 0 10] (garbage fun _ => true)).bind
      (fun H => walk H n (.head 0)) = none := by
  obtain ⟨H, hr, h0, h1⟩ : ∃ H, run [.insertHead 0 10, .insertHead 0 10]
      (garbage fun _ => true) = some H ∧ H.load (.head 0) = some (some 10) ∧
      H.load (.next 10) = some (some 10) := ⟨_, rfl, by decide, by decide⟩
  have key : ∀ n, walk H n (.next 10) = none := by
    intro n
    induction n with
    | zero => simp [walk, h1]
    | succ n ih => simp [walk, h1, ih]
  rw [hr]
  cases n with
  | zero => rw [Option.bind_some, walk, h0]
  | succ n => rw [Option.bind_some, walk, h0]; simp only [key n, Option.map_none]

end Libmonitor.Queue
