import Verif.Proc.PtrInv
/-!
# Every step keeps the links in agreement with the lists
-/

namespace Libmonitor.Proc

open Libmonitor.Queue (Elem Cell Heap)
open Libmonitor.Queue.Spec

theorem list_array {A : S → Lbl → Prop} {s : S} (hs : ReachA A s) :
    ∀ n ∈ s.g.list, n = .main ∨ inArray s.g n := by
  refine glob_inv (A := A) (GI := fun g => ∀ n ∈ g.list, n = .main ∨ inArray g n) (by simp) ?_
    (fun _ h => h) (fun _ h => h) hs
  intro s t f rest ok v g' nx sp hr hA ht hG h
  obtain ⟨a1, a2⟩ := array_inv hr
  have h2 : ∀ n, f = .bt2 n → inArray s.g n := by
    intro n e; subst e
    exact a2 t _ (by rw [ht]; exact List.mem_cons_self) n rfl
  have hmono := nArr_mono a1 h
  have key : ∀ n, n ∈ s.g.list → n = .main ∨ inArray g' n := fun n hn =>
    (hG n hn).imp id (inArray_mono hmono)
  have key2 : ∀ n, f = .bt2 n → inArray g' n := fun n e => inArray_mono hmono (h2 n e)
  have : ∀ n ∈ g'.list, n ∈ s.g.list ∨ n = .main ∨ f = .bt2 n := by
    clear hmono key key2 h2 a1 a2 hG hA hr ht
    cases f <;> fstep_cases h <;> first | exact fun n hn => Or.inl hn | skip
    all_goals simp only [listInit, G.emit, G.upd, resetList]
    all_goals first
      | (simp; done)
      | (split
         · simp
         · exact fun n hn => Or.inl hn)
      | (intro n hn; exact Or.inl (List.mem_of_mem_erase hn))
      | (intro n hn
         rcases List.mem_cons.1 hn with e | hn
         · subst e; simp
         · exact Or.inl hn)
  intro n hn
  rcases this n hn with h | h | h
  · exact key n h
  · exact Or.inl h
  · exact Or.inr (key2 n h)

theorem valid_of_inArray {g : G} {n : NodeId} (h : inArray g n) : n.valid := by
  obtain ⟨k, i, rfl, _, h⟩ := h; exact h

theorem lists_valid {A : S → Lbl → Prop} {s : S} (hs : ReachA A s) :
    ∀ n ∈ s.g.list ++ s.g.free, n.valid := by
  intro n hn
  rcases List.mem_append.1 hn with h | h
  · rcases list_array hs n h with e | e
    · subst e; trivial
    · exact valid_of_inArray e
  · exact valid_of_inArray ((array_inv hs).1.2.2 n h)

/-- The memory agrees with the lists. -/
def MemOk (M : Mem) (g : G) (H : Heap) : Prop :=
  Represents H (two M g.list g.free) ∧ H.alloc (M.addr .main) = true ∧
    ∀ k i, k ≤ g.nArr → i < arraySize → H.alloc (M.addr (.slot k i)) = true

theorem MemOk.alloc {M : Mem} {g : G} {H : Heap} (h : MemOk M g H) {n : NodeId}
    (hn : n = .main ∨ inArray g n) : H.alloc (M.addr n) = true := by
  rcases hn with e | ⟨k, i, rfl, h1, h2⟩
  · subst e; exact h.2.1
  · exact h.2.2 k i h1 h2

theorem MemOk.heads {M : Mem} {g : G} {H : Heap} (h : MemOk M g H) :
    ∀ k, k ≠ 0 → k ≠ 1 → H.cell (.head k) = none := by
  intro k h0 h1
  have := h.1.chain k
  simpa [two, h0, h1, Queue.Spec.Chain] using this

theorem MemOk.same {M : Mem} {g g' : G} {H : Heap} (h : MemOk M g H) (h1 : g'.list = g.list)
    (h2 : g'.free = g.free) (h3 : g'.nArr = g.nArr) : MemOk M g' H := by
  unfold MemOk; rw [h1, h2, h3]; exact h

/-- LIST_INIT of both lists, perhaps after clearing the initial thread's record. -/
theorem reset_mem {M : Mem} {g : G} {t : Tid} {H : Heap} (h : MemOk M g H) :
    ∃ H', (if g.hasUsed then
      match getTn g t with
      | some (.slot _ _) => (zeroLinks M (M.addr .main) H).bind initBoth
      | _ => initBoth H
    else some H) = some H' ∧ MemOk M (resetList g t) H' := by
  cases hu : g.hasUsed with
  | false => exact ⟨H, rfl, by rw [resetList, hu]; exact h⟩
  | true =>
    simp only [if_true]
    have hl : (resetList g t).list = [] ∧ (resetList g t).free = [] ∧
        (resetList g t).nArr = g.nArr := by
      rw [resetList, if_pos hu]; exact ⟨rfl, rfl, rfl⟩
    have fin : ∀ H1 : Heap, (∀ k, k ≠ 0 → k ≠ 1 → H1.cell (.head k) = none) → H1.alloc = H.alloc →
        ∃ H', initBoth H1 = some H' ∧ MemOk M (resetList g t) H' := by
      intro H1 hh ha
      obtain ⟨H', e1, e2, e3⟩ := init_ok (M := M) hh
      refine ⟨H', e1, ?_, ?_, ?_⟩
      · rw [hl.1, hl.2.1]; exact e2
      · rw [e3, ha]; exact h.2.1
      · intro k i hk hi; rw [e3, ha]; exact h.2.2 k i (hl.2.2 ▸ hk) hi
    have hc : ∃ H1, zeroLinks M (M.addr .main) H = some H1 ∧
        (∀ k, k ≠ 0 → k ≠ 1 → H1.cell (.head k) = none) ∧ H1.alloc = H.alloc :=
      ⟨_, if_pos h.2.1, fun k h0 h1 => h.heads k h0 h1, rfl⟩
    cases getTn g t with
    | none => exact fin H h.heads rfl
    | some n =>
      cases n with
      | main => exact fin H h.heads rfl
      | slot a i =>
        obtain ⟨H1, e1, e2, e3⟩ := hc
        simp only [e1, Option.bind_some]
        exact fin H1 e2 e3

/-- A frame whose step does not use the links leaves the lists and arrays alone. -/
def Frame.plain : Frame → Bool
  | .pc0 .. | .bpReset _ | .rfReset | .mk1 .. | .bt2 _ | .ul1 _ | .sd3 => false
  | _ => true

theorem plain_links {M : Mem} {g : G} {t : Tid} {ok : Bool} {f : Frame} {H : Heap}
    (hp : f.plain = true) : links M g t ok f H = some H := by
  cases f <;> first | rfl | (cases hp; done)

theorem plain_lists {g g' : G} {t : Tid} {ok : Bool} {v : Nat} {f : Frame} {nx : Next}
    {sp : Option Frame} (hp : f.plain = true) (h : fstep g t ok v f = some (g', nx, sp)) :
    g'.list = g.list ∧ g'.free = g.free ∧ g'.nArr = g.nArr := by
  cases f <;> first | (cases hp; done) | skip
  all_goals fstep_cases h <;> exact ⟨rfl, rfl, rfl⟩

theorem not_in_lists {s : S} (hs : ReachA Clean s) {n : NodeId} (hn : n ≠ .main)
    (hu : s.g.hasUsed = true) (hb : born s.g.tr = false)
    (h : 1 ≤ one (unalloc s.g.arr s.g.pos s.g.nArr n = true)) : n ∉ s.g.list ++ s.g.free := by
  have k := (new_excl hs hn hu hb).1 0
  unfold availList availRec at k
  intro hm
  rcases List.mem_append.1 hm with hm | hm
  · have := List.count_pos_iff.2 hm; omega
  · have := List.count_pos_iff.2 hm; omega

/-- The choice of a record. -/
theorem make_mem {M : Mem} {s : S} (hs : ReachA Clean s) {H : Heap} (h : MemOk M s.g H)
    (hu : s.g.hasUsed = true) (hb : born s.g.tr = false) {ok : Bool} {a : Got}
    (ha : alloc s.g ok = some a) :
    ∃ H', (match H.cell (.head 1) with
      | some e => (Queue.remove e H).bind (zeroLinks M e)
      | none =>
        if s.g.pos < arraySize then zeroLinks M (M.addr (.slot s.g.arr s.g.pos)) H
        else if ok then zeroLinks M (M.addr (.slot (s.g.nArr + 1) 0)) (newArray M (s.g.nArr + 1) H)
        else some H) = some H' ∧
      Represents H' (two M s.g.list a.free) ∧ H'.alloc (M.addr .main) = true ∧
      ∀ k i, k ≤ a.nArr → i < arraySize → H'.alloc (M.addr (.slot k i)) = true := by
  have hv := lists_valid hs
  obtain ⟨R, hmn, harr⟩ := h
  have hA := (array_inv hs).1
  have hfirst : H.cell (.head 1) = (s.g.free.map M.addr).head? := Queue.chain_first (R.chain 1)
  rw [hfirst]
  unfold alloc at ha
  split at ha
  · rename_i n fs hf
    injection ha with ha; subst ha
    have hnf : n ∈ s.g.free := by rw [hf]; exact List.mem_cons_self
    have hnm : n ∈ s.g.list ++ s.g.free := List.mem_append.2 (Or.inr hnf)
    have hc := lists_count hs n
    have hnl : n ∉ s.g.list := fun hm => by
      have := List.count_pos_iff.2 hm; have := List.count_pos_iff.2 hnf; omega
    have hnfs : n ∉ fs := fun hm => by
      rw [hf, List.count_cons_self] at hc
      have := List.count_pos_iff.2 hm; omega
    have hal : H.alloc (M.addr n) = true := by
      obtain ⟨k, i, rfl, h1, h2⟩ := hA.2.2 n hnf
      exact harr k i h1 h2
    obtain ⟨H1, e1, R1, a1⟩ := take_ok R hv hnm hal
    rw [List.erase_of_not_mem hnl, hf, List.erase_cons_head] at R1
    obtain ⟨H2, e2, R2, a2⟩ := clear_ok (M := M) R1
      (not_on (fun m hm => hv m (by
        rw [hf]
        rcases List.mem_append.1 hm with h | h
        · exact List.mem_append.2 (Or.inl h)
        · exact List.mem_append.2 (Or.inr (List.mem_cons_of_mem _ h)))) (hv n hnm)
        (fun hm => (List.mem_append.1 hm).elim hnl hnfs)) (by rw [a1]; exact hal)
    refine ⟨H2, ?_, R2, by rw [a2, a1]; exact hmn, fun k i h1 h2 => by rw [a2, a1]; exact harr k i h1 h2⟩
    simp only [hf, List.map_cons, List.head?_cons, e1, Option.bind_some, e2]
  · rename_i hf
    rw [hf]
    simp only [List.map_nil, List.head?_nil]
    split at ha
    · rename_i hp
      injection ha with ha; subst ha
      rw [if_pos hp]
      have hnot := not_in_lists hs (n := .slot s.g.arr s.g.pos) (by simp) hu hb
        (by rw [one_pos (by simp [unalloc])]; omega)
      obtain ⟨H2, e2, R2, a2⟩ := clear_ok (M := M) R
        (not_on hv (show NodeId.valid (.slot _ _) from hp) hnot) (harr _ _ hA.2.1 hp)
      rw [hf] at R2
      exact ⟨H2, e2, R2, by rw [a2]; exact hmn, fun k i h1 h2 => by rw [a2]; exact harr k i h1 h2⟩
    · rename_i hp
      split at ha
      · rename_i hok
        injection ha with ha; subst ha
        rw [if_neg hp, if_pos hok]
        have hnot := not_in_lists hs (n := .slot (s.g.nArr + 1) 0) (by simp) hu hb
          (by rw [one_pos (by simp [unalloc])]; omega)
        have hnew : ∀ i, i < arraySize →
            (newArray M (s.g.nArr + 1) H).alloc (M.addr (.slot (s.g.nArr + 1) i)) = true := by
          intro i hi
          simp only [newArray, Bool.or_eq_true]
          exact Or.inr (List.any_eq_true.2 ⟨i, List.mem_range.2 hi, by simp⟩)
        have hold : ∀ e, H.alloc e = true → (newArray M (s.g.nArr + 1) H).alloc e = true := by
          intro e he; simp [newArray, he]
        have R1 : Represents (newArray M (s.g.nArr + 1) H) (two M s.g.list s.g.free) := by
          refine ⟨fun h => ?_, R.nodup, R.disj⟩
          have key : ∀ (l : List Elem) (c : Cell), Queue.Spec.Chain H c l →
              Queue.Spec.Chain (newArray M (s.g.nArr + 1) H) c l := by
            intro l
            induction l with
            | nil => exact fun _ h => h
            | cons a l ih => exact fun c h => ⟨h.1, hold _ h.2.1, h.2.2.1, ih _ h.2.2.2⟩
          exact key _ _ (R.chain h)
        obtain ⟨H2, e2, R2, a2⟩ := clear_ok (M := M) R1
          (not_on hv (show NodeId.valid (.slot _ 0) from by simp [NodeId.valid, arraySize]) hnot)
          (hnew 0 (by decide))
        rw [hf] at R2
        refine ⟨H2, e2, R2, by rw [a2]; exact hold _ hmn, fun k i h1 h2 => ?_⟩
        rw [a2]
        by_cases e : k = s.g.nArr + 1
        · subst e; exact hnew i h2
        · exact hold _ (harr k i (by simp only at h1; omega) h2)
      · cases ha

/-- One step. -/
theorem links_ok {M : Mem} {s : S} (hr : ReachA Clean s) {t : Tid} {f : Frame} {rest : List Frame}
    {ok : Bool} {v : Nat} {g' : G} {nx : Next} {sp : Option Frame} (ht : s.th t = f :: rest)
    (h : fstep s.g t ok v f = some (g', nx, sp)) {H : Heap} (hm : MemOk M s.g H)
    (hub : g'.ub = false) :
    (∃ H', links M s.g t ok f H = some H' ∧ MemOk M g' H') := by
  have hft : f ∈ s.th t := by rw [ht]; exact List.mem_cons_self
  have hmain : f.thr.isSome = true → f.isBtApp = false → t ≠ mainOf s.g.tr := fun h1 h2 =>
    (((base_inv hr).2 t f hft).2.2.2 h1).resolve_right (by rw [h2]; simp)
  have hv := lists_valid hr
  cases hp : f.plain with
  | true =>
    obtain ⟨h1, h2, h3⟩ := plain_lists hp h
    exact ⟨H, plain_links hp, hm.same h1 h2 h3⟩
  | false =>
    cases f <;> first | (cases hp; done) | skip
    case pc0 st ar =>
      fstep_cases h
      · rename_i hu
        exact ⟨H, by simp [links, hu], hm⟩
      · rename_i hu
        obtain ⟨H', e1, e2, e3⟩ := init_ok (M := M) hm.heads
        refine ⟨H', by simp [links, hu, e1], ?_, ?_, ?_⟩
        · exact e2
        · rw [e3]; exact hm.2.1
        · intro k i hk hi; rw [e3]; exact hm.2.2 k i hk hi
    case bpReset d =>
      fstep_cases h
      obtain ⟨H', e1, e2⟩ := reset_mem (t := t) hm
      exact ⟨H', e1, e2.same rfl rfl rfl⟩
    case rfReset =>
      fstep_cases h
      obtain ⟨H', e1, e2⟩ := reset_mem (t := t) hm
      exact ⟨H', e1, e2.same rfl rfl rfl⟩
    case mk1 c my st ar d =>
      have hB := ((base_inv hr).2 t _ hft).2.2.1 rfl
      have hu := hB.1.resolve_left (by simp [Frame.isPc1])
      fstep_cases h
      · rename_i ha
        have ha' : s.g.free = [] ∧ ¬ s.g.pos < arraySize ∧ ok = false := by
          unfold alloc at ha
          split at ha
          · cases ha
          · split at ha
            · cases ha
            · split at ha
              · cases ha
              · rename_i h1 h2 h3
                exact ⟨h1, h2, by simpa using h3⟩
        have hfirst : H.cell (.head 1) = (s.g.free.map M.addr).head? :=
          Queue.chain_first (hm.1.chain 1)
        refine ⟨H, ?_, hm⟩
        simp [links, hfirst, ha'.1, ha'.2.1, ha'.2.2]
      · rename_i a ha
        obtain ⟨H', e1, e2, e3, e4⟩ := make_mem hr hm hu hB.2 ha
        exact ⟨H', e1, e2, e3, e4⟩
    case bt2 n =>
      have hne := claims_ne_main hr hft (Or.inr rfl)
      have hbu := born_of_live hr hft (hmain rfl rfl)
      have hin := (array_inv hr).2 t _ hft n rfl
      fstep_cases h
      · rename_i hi
        exact ⟨H, by simp [links, hi], hm⟩
      · cases hub
      · rename_i hi hl
        have hav := claims_avail hr hne hft (Or.inr ⟨hmain rfl rfl, rfl⟩)
        unfold availRec at hav
        have hnf : n ∉ s.g.free := fun h => by have := List.count_pos_iff.2 h; omega
        obtain ⟨H', e1, e2, e3⟩ := put_ok hm.1 hv (valid_of_inArray hin)
          (fun h => (List.mem_append.1 h).elim hl hnf) (hm.alloc (Or.inr hin))
        refine ⟨H', by simp [links, hi, e1], e2, by rw [e3]; exact hm.2.1, ?_⟩
        intro k i hk hi; rw [e3]; exact hm.2.2 k i hk hi
    case ul1 n =>
      fstep_cases h
      · rename_i hi
        exact ⟨H, by simp [links, hi], hm⟩
      · rename_i hi hl
        have hc := lists_count hr n
        have hcl := List.count_pos_iff.2 hl
        have hnf : n ∉ s.g.free := fun h => by have := List.count_pos_iff.2 h; omega
        have hnn : n ∈ s.g.list ++ s.g.free := List.mem_append.2 (Or.inl hl)
        have hal := hm.alloc (list_array hr n hl)
        obtain ⟨H1, e1, R1, a1⟩ := take_ok hm.1 hv hnn hal
        rw [List.erase_of_not_mem hnf] at R1
        have hv1 : ∀ m ∈ s.g.list.erase n ++ s.g.free, m.valid := fun m h => hv m (by
          rcases List.mem_append.1 h with h | h
          · exact List.mem_append.2 (Or.inl (List.mem_of_mem_erase h))
          · exact List.mem_append.2 (Or.inr h))
        have hnot : n ∉ s.g.list.erase n ++ s.g.free := fun h => by
          rcases List.mem_append.1 h with h | h
          · have := List.count_pos_iff.2 h
            rw [List.count_erase_self] at this; omega
          · exact hnf h
        obtain ⟨H2, e2, R2, a2⟩ := clear_ok (M := M) R1 (not_on hv1 (hv n hnn) hnot) (by rw [a1]; exact hal)
        obtain ⟨H3, e3, R3, a3⟩ := putFree_ok R2 hv1 (hv n hnn) hnot (by rw [a2, a1]; exact hal)
        refine ⟨H3, by simp [links, hi, e1, e2, e3], R3, by rw [a3, a2, a1]; exact hm.2.1, ?_⟩
        intro k i hk hi; rw [a3, a2, a1]; exact hm.2.2 k i hk hi
      · cases hub
    case sd3 =>
      fstep_cases h
      · rename_i hs
        exact ⟨H, by simp [links, hs], hm⟩
      · rename_i hs
        have h0 : s.g.handlerOn = false := by
          have := (oneTok_holder (oneTok_put hr) ht rfl).1
          simpa using this
        have hl := (main_count hr).1 h0
        have hf := (rec_inv hr).1
        obtain ⟨H', e1, e2, e3⟩ := put_ok hm.1 hv (n := .main) trivial
          (fun h => (List.mem_append.1 h).elim hl hf) hm.2.1
        refine ⟨H', by simp [links, hs, e1], e2, by rw [e3]; exact hm.2.1, ?_⟩
        intro k i hk hi; rw [e3]; exact hm.2.2 k i hk hi

end Libmonitor.Proc
