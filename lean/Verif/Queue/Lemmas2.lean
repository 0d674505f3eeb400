import Verif.Queue.Lemmas

/-!
# One operation on a heap that represents lists
-/

namespace Libmonitor.Queue

open Spec

theorem putAfter_notin {x e : Elem} : ∀ {l : List Elem}, x ∉ l → putAfter x e l = l
  | [], _ => rfl
  | a :: l, h => by
    have h1 : a ≠ x := fun k => h (by simp [k])
    simp [putAfter, h1, putAfter_notin (fun k => h (by simp [k]) : x ∉ l)]

theorem putBefore_notin {x e : Elem} : ∀ {l : List Elem}, x ∉ l → putBefore x e l = l
  | [], _ => rfl
  | a :: l, h => by
    have h1 : a ≠ x := fun k => h (by simp [k])
    simp [putBefore, h1, putBefore_notin (fun k => h (by simp [k]) : x ∉ l)]

theorem putAfter_split {x e : Elem} : ∀ {l₁ l₂ : List Elem}, x ∉ l₁ →
    putAfter x e (l₁ ++ x :: l₂) = l₁ ++ x :: e :: l₂
  | [], l₂, _ => by simp [putAfter]
  | a :: l, l₂, h => by
    have h1 : a ≠ x := fun k => h (by simp [k])
    simp [putAfter, h1, putAfter_split (fun k => h (by simp [k]) : x ∉ l)]

theorem putBefore_split {x e : Elem} : ∀ {l₁ l₂ : List Elem}, x ∉ l₁ →
    putBefore x e (l₁ ++ x :: l₂) = l₁ ++ e :: x :: l₂
  | [], l₂, _ => by simp [putBefore]
  | a :: l, l₂, h => by
    have h1 : a ≠ x := fun k => h (by simp [k])
    simp [putBefore, h1, putBefore_split (fun k => h (by simp [k]) : x ∉ l)]

theorem erase_split {x : Elem} {l₁ l₂ : List Elem} (h : x ∉ l₁) :
    (l₁ ++ x :: l₂).erase x = l₁ ++ l₂ := by
  rw [List.erase_append_right _ h]; simp

/-- Split a list at a member. -/
theorem split_mem {x : Elem} {l : List Elem} (h : x ∈ l) (hn : l.Nodup) :
    ∃ l₁ l₂, l = l₁ ++ x :: l₂ ∧ x ∉ l₁ := by
  obtain ⟨l₁, l₂, rfl⟩ := List.append_of_mem h
  refine ⟨l₁, l₂, rfl, fun k => ?_⟩
  exact (List.nodup_append.1 hn).2.2 _ k _ (by simp) rfl

theorem insAt_touches {H : Heap} {h : Nat} {l₁ l₂ : List Elem} {e : Elem}
    (hc : Chain H (.head h) (l₁ ++ l₂)) :
    OnlyTouches H (insAt (lastCell (.head h) l₁) e H) h (e :: (l₁ ++ l₂)) := by
  have hs := ((chain_append _ _ _ _).1 hc).2
  refine ⟨rfl, ?_, ?_, ?_⟩
  · intro h' hne
    have h0 : Cell.head h' ≠ lastCell (.head h) l₁ := fun k =>
      hne (lastCell_head_eq _ _ _ k.symm).symm
    simp [insAt, h0]
  · intro x hx
    have h1 : Cell.next x ≠ lastCell (.head h) l₁ := fun k =>
      hx (by simp [lastCell_next_eq _ _ _ (by simp) k.symm])
    have h2 : x ≠ e := fun k => hx (by simp [k])
    simp [insAt, h1, h2]
  · intro x hx
    have h2 : x ≠ e := fun k => hx (by simp [k])
    have h3 : H.cell (lastCell (.head h) l₁) ≠ some x := by
      rw [chain_first hs]
      intro k
      exact hx (by simp [List.mem_of_mem_head? (Option.mem_def.2 k)])
    simp [insAt, h2, h3]

theorem remAt_touches {H : Heap} {h : Nat} {l₁ l₂ : List Elem} {e : Elem}
    (hc : Chain H (.head h) (l₁ ++ e :: l₂)) :
    OnlyTouches H (remAt (lastCell (.head h) l₁) e H) h (l₁ ++ e :: l₂) := by
  have hs := ((chain_append _ _ _ _).1 hc).2.2.2.2
  refine ⟨rfl, ?_, ?_, ?_⟩
  · intro h' hne
    have h0 : Cell.head h' ≠ lastCell (.head h) l₁ := fun k =>
      hne (lastCell_head_eq _ _ _ k.symm).symm
    simp [remAt, h0]
  · intro x hx
    have h1 : Cell.next x ≠ lastCell (.head h) l₁ := fun k =>
      hx (by simp [lastCell_next_eq _ _ _ (by simp) k.symm])
    simp [remAt, h1]
  · intro x hx
    have h3 : H.cell (.next e) ≠ some x := by
      rw [chain_first hs]
      intro k
      exact hx (by simp [List.mem_of_mem_head? (Option.mem_def.2 k)])
    simp [remAt, h3]

/-- The result of a splice-in represents the lists with `l₁ ++ e :: l₂` at `h`. -/
theorem represents_insAt {H : Heap} {L : Lists} {h : Nat} {l₁ l₂ : List Elem} {e : Elem}
    (R : Represents H L) (hl : L h = l₁ ++ l₂) (he : ¬ OnList L e) (ha : H.alloc e = true) :
    Represents (insAt (lastCell (.head h) l₁) e H) (upd L h (l₁ ++ e :: l₂)) := by
  have hel : e ∉ l₁ ++ l₂ := fun k => he ⟨h, hl ▸ k⟩
  have hc : Chain H (.head h) (l₁ ++ l₂) := hl ▸ R.chain h
  have hn : (l₁ ++ l₂).Nodup := hl ▸ R.nodup h
  refine ⟨fun h' => ?_, fun h' => ?_, ?_⟩
  · by_cases k : h' = h
    · subst k; simpa [upd] using chain_insAt hc hn hel ha
    · simp only [upd, k, if_false]
      exact chain_insAt_other hc k (R.chain h') (fun q => he ⟨h', q⟩)
        (fun x hx hx' => R.disj h' h k x hx (hl ▸ hx'))
  · by_cases k : h' = h
    · subst k
      simp only [upd, if_true]
      have : (e :: (l₁ ++ l₂)).Nodup := List.nodup_cons.2 ⟨hel, hn⟩
      exact (List.perm_middle.nodup_iff).2 this
    · simpa [upd, k] using R.nodup h'
  · intro a b hab x hx hx'
    have aux : ∀ y, y ∈ l₁ ++ e :: l₂ → y = e ∨ y ∈ L h := by
      intro y hy
      rw [hl]
      simp only [List.mem_append, List.mem_cons] at hy ⊢
      rcases hy with hy | hy | hy <;> simp [hy]
    by_cases ka : a = h <;> by_cases kb : b = h
    · exact hab (ka.trans kb.symm)
    · simp only [upd, ka, kb, if_true, if_false] at hx hx'
      rcases aux x hx with rfl | hx
      · exact he ⟨b, hx'⟩
      · exact R.disj h b (fun q => kb q.symm) x hx hx'
    · simp only [upd, ka, kb, if_true, if_false] at hx hx'
      rcases aux x hx' with rfl | hx'
      · exact he ⟨a, hx⟩
      · exact R.disj a h ka x hx hx'
    · simp only [upd, ka, kb, if_false] at hx hx'
      exact R.disj a b hab x hx hx'

theorem represents_remAt {H : Heap} {L : Lists} {h : Nat} {l₁ l₂ : List Elem} {e : Elem}
    (R : Represents H L) (hl : L h = l₁ ++ e :: l₂) :
    Represents (remAt (lastCell (.head h) l₁) e H) (upd L h (l₁ ++ l₂)) := by
  have hc : Chain H (.head h) (l₁ ++ e :: l₂) := hl ▸ R.chain h
  have hn : (l₁ ++ e :: l₂).Nodup := hl ▸ R.nodup h
  have sub : ∀ y, y ∈ l₁ ++ l₂ → y ∈ L h := by
    intro y hy
    rw [hl]
    simp only [List.mem_append, List.mem_cons] at hy ⊢
    rcases hy with hy | hy <;> simp [hy]
  refine ⟨fun h' => ?_, fun h' => ?_, ?_⟩
  · by_cases k : h' = h
    · subst k; simpa [upd] using chain_remAt hc hn
    · simp only [upd, k, if_false]
      exact chain_remAt_other hc k (R.chain h')
        (fun x hx hx' => R.disj h' h k x hx (hl ▸ hx'))
  · by_cases k : h' = h
    · subst k
      simp only [upd, if_true]
      exact (List.nodup_cons.1 ((List.perm_middle.nodup_iff).1 hn)).2
    · simpa [upd, k] using R.nodup h'
  · intro a b hab x hx hx'
    by_cases ka : a = h <;> by_cases kb : b = h
    · exact hab (ka.trans kb.symm)
    · simp only [upd, ka, kb, if_true, if_false] at hx hx'
      exact R.disj h b (fun q => kb q.symm) x (sub x hx) hx'
    · simp only [upd, ka, kb, if_true, if_false] at hx hx'
      exact R.disj a h ka x hx (sub x hx')
    · simp only [upd, ka, kb, if_false] at hx hx'
      exact R.disj a b hab x hx hx'

theorem upd_notin (f : List Elem → List Elem) {L : Lists} {h : Nat}
    (hf : ∀ h', h' ≠ h → f (L h') = L h') : (fun h' => f (L h')) = upd L h (f (L h)) := by
  funext h'
  by_cases k : h' = h
  · subst k; simp [upd]
  · simp [upd, k, hf h' k]

/-- One allowed operation: it has a result, which represents the expected lists; besides the
element it only touches the one list concerned. -/
theorem exec_ok {H : Heap} {L : Lists} (R : Represents H L) (o : Op) (hok : Allowed o L)
    (ha : ∀ e ∈ elems o, H.alloc e = true) :
    ∃ H' h, exec o H = some H' ∧ Represents H' (effect o L) ∧
      OnlyTouches H H' h (elems o ++ L h) ∧ (∀ h', h' ≠ h → effect o L h' = L h') := by
  cases o with
  | init h =>
    refine ⟨H.setCell (.head h) none, h, by simp [exec, init, Heap.store, Heap.cellOk], ?_, ?_,
      fun h' k => by simp [effect, upd, k]⟩
    · refine ⟨fun h' => ?_, fun h' => ?_, ?_⟩
      · by_cases k : h' = h
        · simp [effect, upd, k, Chain, Heap.setCell]
        · simp only [effect, upd, k, if_false]
          exact chain_frame (H := H) (H' := H.setCell (.head h) none) rfl _ _
            (by simp [Heap.setCell, k]) (fun x _ => by simp [Heap.setCell]) (fun _ _ => rfl)
            (R.chain h')
      · by_cases k : h' = h <;> simp [effect, upd, k, R.nodup h']
      · intro a b hab x hx hx'
        by_cases ka : a = h <;> by_cases kb : b = h <;>
          simp only [effect, upd, ka, kb, if_true, if_false, List.not_mem_nil] at hx hx'
        exact R.disj a b hab x hx hx'
    · exact ⟨rfl, fun h' k => by simp [Heap.setCell, k], fun x _ => by simp [Heap.setCell],
        fun _ _ => rfl⟩
  | insertHead h e =>
    have hae := ha e (by simp [elems])
    have hc := R.chain h
    have hf := chain_first hc
    refine ⟨insAt (.head h) e H, h, ?_, ?_, ?_, fun h' k => by simp [effect, upd, k]⟩
    · refine insertHead_eq hae ?_ ?_
      · intro f k
        rw [hf] at k
        exact chain_alloc hc f (List.mem_of_mem_head? (Option.mem_def.2 k))
      · rw [hf]
        intro k
        exact hok ⟨h, List.mem_of_mem_head? (Option.mem_def.2 k)⟩
    · exact represents_insAt (l₁ := []) R rfl hok hae
    · exact insAt_touches (l₁ := []) hc
  | insertAfter x e =>
    obtain ⟨⟨h, hx⟩, hne⟩ := hok
    have hax := ha x (by simp [elems])
    have hae := ha e (by simp [elems])
    have hc := R.chain h
    obtain ⟨l₁, l₂, hl, hx1⟩ := split_mem hx (R.nodup h)
    have hlast : lastCell (.head h) (l₁ ++ [x]) = .next x := by simp [lastCell_append, lastCell]
    have hl' : L h = (l₁ ++ [x]) ++ l₂ := by simp [hl]
    have hs := ((chain_append _ _ _ _).1 (hl' ▸ hc)).2
    rw [hlast] at hs
    have hf := chain_first hs
    have hothers : ∀ h', h' ≠ h → putAfter x e (L h') = L h' := fun h' k =>
      putAfter_notin (fun q => R.disj h' h k x q hx)
    refine ⟨insAt (.next x) e H, h, ?_, ?_, ?_, fun h' k => hothers h' k⟩
    · refine insertAfter_eq hax hae ?_ ?_ ?_
      · rintro rfl; exact hne ⟨h, hx⟩
      · intro f k
        rw [hf] at k
        exact chain_alloc hs f (List.mem_of_mem_head? (Option.mem_def.2 k))
      · rw [hf]
        intro k
        exact hne ⟨h, by rw [hl']; simp [List.mem_of_mem_head? (Option.mem_def.2 k)]⟩
    · have := represents_insAt R hl' hne hae
      rw [hlast] at this
      have e2 : effect (.insertAfter x e) L = upd L h ((l₁ ++ [x]) ++ e :: l₂) := by
        show (fun h' => putAfter x e (L h')) = _
        rw [upd_notin (putAfter x e) hothers, hl, putAfter_split hx1]
        simp
      rw [e2]; exact this
    · have := insAt_touches (e := e) (hl' ▸ hc)
      rw [hlast, ← hl'] at this
      refine ⟨this.alloc, this.head, fun y hy => this.next y ?_, fun y hy => this.prev y ?_⟩ <;>
      · intro k; apply hy
        simp only [elems, List.mem_cons, List.mem_append] at k ⊢
        rcases k with k | k <;> simp [k]
  | insertBefore x e =>
    obtain ⟨⟨h, hx⟩, hne⟩ := hok
    have hax := ha x (by simp [elems])
    have hae := ha e (by simp [elems])
    have hc := R.chain h
    obtain ⟨l₁, l₂, hl, hx1⟩ := split_mem hx (R.nodup h)
    have hc' : Chain H (.head h) (l₁ ++ x :: l₂) := hl ▸ hc
    obtain ⟨hs1, hs2, hs3, hs4⟩ := ((chain_append _ _ _ _).1 hc').2
    have hothers : ∀ h', h' ≠ h → putBefore x e (L h') = L h' := fun h' k =>
      putBefore_notin (fun q => R.disj h' h k x q hx)
    refine ⟨insAt (lastCell (.head h) l₁) e H, h, ?_, ?_, ?_, fun h' k => hothers h' k⟩
    · refine insertBefore_eq hax hae ?_ hs3 (cellOk_lastCell hc') hs1 ?_
      · rintro rfl; exact hne ⟨h, hx⟩
      · intro k
        exact hne ⟨h, by rw [hl]; simp [lastCell_next_eq _ _ _ (by simp) k]⟩
    · have := represents_insAt R hl hne hae
      have e2 : effect (.insertBefore x e) L = upd L h (l₁ ++ e :: x :: l₂) := by
        show (fun h' => putBefore x e (L h')) = _
        rw [upd_notin (putBefore x e) hothers, hl, putBefore_split hx1]
      rw [e2]; exact this
    · have := insAt_touches (e := e) hc'
      rw [← hl] at this
      refine ⟨this.alloc, this.head, fun y hy => this.next y ?_, fun y hy => this.prev y ?_⟩ <;>
      · intro k; apply hy
        simp only [elems, List.mem_cons, List.mem_append] at k ⊢
        rcases k with k | k <;> simp [k]
  | remove e =>
    obtain ⟨h, hx⟩ := hok
    have hae := ha e (by simp [elems])
    have hc := R.chain h
    obtain ⟨l₁, l₂, hl, hx1⟩ := split_mem hx (R.nodup h)
    have hc' : Chain H (.head h) (l₁ ++ e :: l₂) := hl ▸ hc
    obtain ⟨hs1, hs2, hs3, hs4⟩ := ((chain_append _ _ _ _).1 hc').2
    have hf := chain_first hs4
    have hothers : ∀ h', h' ≠ h → (L h').erase e = L h' := fun h' k =>
      List.erase_of_not_mem (fun q => R.disj h' h k e q hx)
    refine ⟨remAt (lastCell (.head h) l₁) e H, h, ?_, ?_, ?_, fun h' k => hothers h' k⟩
    · refine remove_eq hae hs3 (cellOk_lastCell hc') ?_ ?_
      · intro f k
        rw [hf] at k
        exact chain_alloc hs4 f (List.mem_of_mem_head? (Option.mem_def.2 k))
      · rw [hf]
        intro k
        have hn := R.nodup h
        rw [hl] at hn
        exact (List.nodup_cons.1 (List.nodup_append.1 hn).2.1).1
          (List.mem_of_mem_head? (Option.mem_def.2 k))
    · have := represents_remAt R hl
      have e2 : effect (.remove e) L = upd L h (l₁ ++ l₂) := by
        show (fun h' => (L h').erase e) = _
        rw [upd_notin (fun l => l.erase e) hothers, hl, erase_split hx1]
      rw [e2]; exact this
    · have := remAt_touches hc'
      rw [← hl] at this
      refine ⟨this.alloc, this.head, fun y hy => this.next y ?_, fun y hy => this.prev y ?_⟩ <;>
      · intro k; apply hy
        simp only [elems, List.mem_append] at k ⊢
        simp [k]

theorem run_ok : ∀ (os : List Op) {H : Heap} {L : Lists}, Represents H L → AllowedAll os L →
    (∀ o ∈ os, ∀ e ∈ elems o, H.alloc e = true) →
    ∃ H', run os H = some H' ∧ Represents H' (effects os L)
  | [], H, _, R, _, _ => ⟨H, rfl, R⟩
  | o :: os, H, L, R, hok, ha => by
    obtain ⟨H1, h, e1, R1, T, _⟩ := exec_ok R o hok.1 (ha o (by simp))
    obtain ⟨H2, e2, R2⟩ := run_ok os R1 hok.2 (fun o' ho e he => by
      rw [T.alloc]; exact ha o' (by simp [ho]) e he)
    exact ⟨H2, by simp [run, e1, e2], R2⟩

theorem holds_of_represents {H : Heap} {L : Lists} (R : Represents H L) : Holds H L :=
  fun h => walk_chain H _ _ rfl (R.chain h)

end Libmonitor.Queue
