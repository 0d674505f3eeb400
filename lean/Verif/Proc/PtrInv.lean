import Verif.Proc.Ptr
import Verif.Proc.Ub
import Verif.Proc.Array
import Verif.Proc.OwnKeep
import Verif.Queue.Lemmas2
/-!
# The links agree with the lists
-/

namespace Libmonitor.Proc

open Libmonitor.Queue (Elem Cell Heap)
open Libmonitor.Queue.Spec

/-- The contents of the heads. -/
def two (M : Mem) (l f : List NodeId) : Lists :=
  fun h => if h = 0 then l.map M.addr else if h = 1 then f.map M.addr else []

theorem mem_two {M : Mem} {l f : List NodeId} (hv : ∀ m ∈ l ++ f, m.valid) {n : NodeId}
    (hn : n.valid) {h : Nat} (hm : M.addr n ∈ two M l f h) : n ∈ l ++ f := by
  unfold two at hm
  have : ∀ k : List NodeId, (∀ m ∈ k, m ∈ l ++ f) → M.addr n ∈ k.map M.addr → n ∈ l ++ f := by
    intro k hk h
    obtain ⟨m, h1, h2⟩ := List.mem_map.1 h
    have e := M.inj m n (hv m (hk m h1)) hn h2
    rw [← e]; exact hk m h1
  split at hm
  · exact this l (fun m h => List.mem_append.2 (Or.inl h)) hm
  · split at hm
    · exact this f (fun m h => List.mem_append.2 (Or.inr h)) hm
    · cases hm

theorem not_on {M : Mem} {l f : List NodeId} (hv : ∀ m ∈ l ++ f, m.valid) {n : NodeId}
    (hn : n.valid) (h : n ∉ l ++ f) : ¬ OnList (two M l f) (M.addr n) :=
  fun ⟨_, hm⟩ => h (mem_two hv hn hm)

theorem erase_map {M : Mem} {l : List NodeId} (hv : ∀ m ∈ l, m.valid) {n : NodeId} (hn : n.valid) :
    (l.map M.addr).erase (M.addr n) = (l.erase n).map M.addr := by
  induction l with
  | nil => rfl
  | cons a l ih =>
    have ih := ih (fun m h => hv m (List.mem_cons_of_mem _ h))
    by_cases e : a = n
    · subst e; simp
    · have e' : M.addr a ≠ M.addr n := fun h => e (M.inj a n (hv a List.mem_cons_self) hn h)
      rw [List.map_cons, List.erase_cons_tail (by simpa using e'), List.erase_cons_tail (by simpa using e),
        List.map_cons, ih]

/-- Clearing a record that is on no list. -/
theorem clear_ok {M : Mem} {H : Heap} {L : Lists} {e : Elem} (R : Represents H L)
    (he : ¬ OnList L e) (ha : H.alloc e = true) :
    ∃ H', zeroLinks M e H = some H' ∧ Represents H' L ∧ H'.alloc = H.alloc := by
  refine ⟨(H.setCell (.next e) none).setPrev e (.next M.null), if_pos ha, ?_, rfl⟩
  have key : ∀ (l : List Elem) (c : Cell), Queue.Spec.Chain H c l → e ∉ l → c ≠ .next e →
      Queue.Spec.Chain ((H.setCell (.next e) none).setPrev e (.next M.null)) c l := by
    intro l
    induction l with
    | nil =>
      intro c h _ hc
      simp only [Queue.Spec.Chain, Heap.setCell, Heap.setPrev, if_neg hc] at h ⊢
      exact h
    | cons a l ih =>
      intro c h hn hc
      obtain ⟨h1, h2, h3, h4⟩ := h
      have hae : a ≠ e := fun h => hn (by rw [h]; exact List.mem_cons_self)
      refine ⟨?_, h2, ?_, ih _ h4 (fun h => hn (List.mem_cons_of_mem _ h)) (fun h => hae (by injection h))⟩
      · simp only [Heap.setCell, Heap.setPrev, if_neg hc]; exact h1
      · simp only [Heap.setCell, Heap.setPrev, if_neg hae]; exact h3
  exact ⟨fun h => key _ _ (R.chain h) (fun hm => he ⟨h, hm⟩) (by simp), R.nodup, R.disj⟩

theorem two_nil {M : Mem} {h : Nat} : two M [] [] h = [] := by simp [two]

theorem init_ok {M : Mem} {H : Heap} (hh : ∀ h, h ≠ 0 → h ≠ 1 → H.cell (.head h) = none) :
    ∃ H', initBoth H = some H' ∧ Represents H' (two M [] []) ∧ H'.alloc = H.alloc := by
  refine ⟨(H.setCell (.head 0) none).setCell (.head 1) none, rfl, ⟨fun h => ?_, fun h => ?_, ?_⟩, rfl⟩
  · rw [two_nil]
    show (if Cell.head h = .head 1 then none else if Cell.head h = .head 0 then none else _) = none
    by_cases h1 : h = 1
    · rw [if_pos (by rw [h1])]
    · rw [if_neg (by simpa using h1)]
      by_cases h0 : h = 0
      · rw [if_pos (by rw [h0])]
      · rw [if_neg (by simpa using h0)]; exact hh h h0 h1
  · rw [two_nil]; exact List.nodup_nil
  · intro h h' _ e hm
    rw [two_nil] at hm; cases hm

theorem put_ok {M : Mem} {H : Heap} {l f : List NodeId} {n : NodeId} (R : Represents H (two M l f))
    (hv : ∀ m ∈ l ++ f, m.valid) (hn : n.valid) (hm : n ∉ l ++ f) (ha : H.alloc (M.addr n) = true) :
    ∃ H', Queue.insertHead 0 (M.addr n) H = some H' ∧ Represents H' (two M (n :: l) f) ∧
      H'.alloc = H.alloc := by
  obtain ⟨H', h, h1, h2, h3, -⟩ := Queue.exec_ok R (.insertHead 0 (M.addr n)) (not_on hv hn hm)
    (by simpa [elems] using ha)
  refine ⟨H', h1, ?_, h3.alloc⟩
  have : effect (.insertHead 0 (M.addr n)) (two M l f) = two M (n :: l) f := by
    funext k
    by_cases h0 : k = 0
    · subst h0; simp [effect, upd, two]
    · simp [effect, upd, two, h0]
  rw [← this]; exact h2

theorem putFree_ok {M : Mem} {H : Heap} {l f : List NodeId} {n : NodeId}
    (R : Represents H (two M l f)) (hv : ∀ m ∈ l ++ f, m.valid) (hn : n.valid) (hm : n ∉ l ++ f)
    (ha : H.alloc (M.addr n) = true) :
    ∃ H', Queue.insertHead 1 (M.addr n) H = some H' ∧ Represents H' (two M l (n :: f)) ∧
      H'.alloc = H.alloc := by
  obtain ⟨H', h, h1, h2, h3, -⟩ := Queue.exec_ok R (.insertHead 1 (M.addr n)) (not_on hv hn hm)
    (by simpa [elems] using ha)
  refine ⟨H', h1, ?_, h3.alloc⟩
  have : effect (.insertHead 1 (M.addr n)) (two M l f) = two M l (n :: f) := by
    funext k
    by_cases h1 : k = 1
    · subst h1; simp [effect, upd, two]
    · simp [effect, upd, two, h1]
  rw [← this]; exact h2

theorem take_ok {M : Mem} {H : Heap} {l f : List NodeId} {n : NodeId}
    (R : Represents H (two M l f)) (hv : ∀ m ∈ l ++ f, m.valid) (hm : n ∈ l ++ f)
    (ha : H.alloc (M.addr n) = true) :
    ∃ H', Queue.remove (M.addr n) H = some H' ∧
      Represents H' (two M (l.erase n) (f.erase n)) ∧ H'.alloc = H.alloc := by
  have hon : OnList (two M l f) (M.addr n) := by
    rcases List.mem_append.1 hm with h | h
    · exact ⟨0, List.mem_map.2 ⟨n, h, rfl⟩⟩
    · exact ⟨1, List.mem_map.2 ⟨n, h, rfl⟩⟩
  obtain ⟨H', h, h1, h2, h3, -⟩ := Queue.exec_ok R (.remove (M.addr n)) hon
    (by simpa [elems] using ha)
  refine ⟨H', h1, ?_, h3.alloc⟩
  have hn := hv n hm
  have : effect (.remove (M.addr n)) (two M l f) = two M (l.erase n) (f.erase n) := by
    funext k
    show (two M l f k).erase (M.addr n) = _
    unfold two
    split
    · exact erase_map (fun m h => hv m (List.mem_append.2 (Or.inl h))) hn
    · split
      · exact erase_map (fun m h => hv m (List.mem_append.2 (Or.inr h))) hn
      · rfl
  rw [← this]; exact h2

end Libmonitor.Proc
