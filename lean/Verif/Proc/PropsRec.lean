import Verif.Proc.BroadInv
import Verif.Proc.Array
import Verif.Proc.PropsThread
/-!
# C10: threads do not share records
-/

namespace Libmonitor.Proc

/-- The record of a thread: what monitor_get_tn finds, or, as long as the thread has not stored it,
the argument of monitor_begin_thread. -/
def owns (s : S) (u : Tid) (n : NodeId) : Prop := getTn s.g u = some n ∨ .bt0 n ∈ s.th u

/-- The thread exists and is not past its cleanup routine. -/
def live (s : S) (u : Tid) : Prop := s.th u ≠ [] ∧ s.th u ≠ [.tdtor]

instance (s : S) (u : Tid) (n : NodeId) : Decidable (owns s u n) := by unfold owns; infer_instance
instance (s : S) (u : Tid) : Decidable (live s u) := by unfold live; infer_instance

theorem owns_cases {s : S} (hs : ReachA Clean s) (hb : born s.g.tr = false) {u : Tid} {n : NodeId}
    (hl : live s u) (ho : owns s u n) : (n = .main ∧ u = mainOf s.g.tr) ∨
      (n ≠ .main ∧ u ≠ mainOf s.g.tr ∧ ∃ f ∈ s.th u, f.thr = some n ∧ claims s.g u f n) := by
  rcases ho with ho | ho
  · have hm := getTn_mine hs hb hl.1 ho
    rcases hm with h | ⟨h1, h2, h3⟩
    · exact Or.inl h
    · obtain ⟨f, hf, k1, _, k2⟩ := mine_claims hs (Or.inr ⟨h1, h2, h3⟩) h1 hl.1 hl.2
      exact Or.inr ⟨h1, h2, f, hf, k1, k2⟩
  · have hne := thr_ne_main hs ho (n := n) rfl rfl
    exact Or.inr ⟨claims_ne_main hs ho (Or.inr rfl), hne, _, ho, rfl, Or.inr ⟨hne, rfl⟩⟩

/-- C10: two live threads do not own the same record.

Missing: executions outside `Clean` (`C10_orphan_shares`); threads in the destructors of their
thread-specific data (`C10_dying_shares`). -/
theorem C10_not_shared_partial {s : S} (hs : ReachA Clean s) {u w : Tid} {n : NodeId}
    (hu : live s u) (hw : live s w) (hou : owns s u n) (how : owns s w n) : u = w := by
  cases hb : born s.g.tr with
  | true =>
    obtain ⟨f, rest, _, _, _, h⟩ := birth_inv hs hb
    have key : ∀ x, live s x → x = mainOf s.g.tr := by
      intro x hx
      by_cases e : x = mainOf s.g.tr
      · exact e
      · exact absurd (h x e) hx.1
    rw [key u hu, key w hw]
  | false =>
    rcases owns_cases hs hb hu hou with ⟨e1, e2⟩ | ⟨e1, _, f, hf, _, hc⟩
    · rcases owns_cases hs hb hw how with ⟨_, e3⟩ | ⟨e3, _⟩
      · rw [e2, e3]
      · exact absurd e1 e3
    · rcases owns_cases hs hb hw how with ⟨e3, _⟩ | ⟨_, _, f', hf', _, hc'⟩
      · exact absurd e3 e1
      · exact (claims_excl hs e1 hf hc hf' hc').1

/-- C10: a record that a live thread owns is not available: the next call of
monitor_make_thread_node does not take it.

Missing: as above. -/
theorem C10_not_available_partial {s : S} (hs : ReachA Clean s) (hb : born s.g.tr = false)
    {u : Tid} {n : NodeId} (hu : live s u) (hou : owns s u n) {ok : Bool} {a : Got}
    (ha : alloc s.g ok = some a) : a.n ≠ n ∧ n ∉ s.g.free := by
  rcases owns_cases hs hb hu hou with ⟨e1, e2⟩ | ⟨e1, _, f, hf, _, hc⟩
  · subst e1
    refine ⟨?_, (rec_inv hs).1⟩
    intro e
    have := (rec_inv hs).1
    unfold alloc at ha
    split at ha
    · rename_i m fs hfree
      cases ha
      exact this (by rw [hfree, ← e]; exact List.mem_cons_self)
    · split at ha
      · cases ha; cases e
      · split at ha <;> cases ha; cases e
  · have h0 := claims_avail hs e1 hf hc
    refine ⟨?_, ?_⟩
    · intro e
      have := alloc_pos (arr_inv hs) ha
      rw [e] at this; omega
    · intro hm
      have : 1 ≤ s.g.free.count n := List.count_pos_iff.2 hm
      unfold availRec at h0
      omega

/-- C10: the record that a live created thread owns is the one it was made with, and main's record is
owned by the initial thread only.

Missing: as above. -/
theorem C10_own_record_partial {s : S} (hs : ReachA Clean s) (hb : born s.g.tr = false)
    {u : Tid} {n : NodeId} (hu : live s u) (hou : owns s u n) :
    (n = .main ↔ u = mainOf s.g.tr) ∧
      (u ≠ mainOf s.g.tr → ∃ w c st ar d, (w, .spawn c u n st ar d) ∈ s.g.tr) := by
  rcases owns_cases hs hb hu hou with ⟨e1, e2⟩ | ⟨e1, e2, f, hf, ht, hc⟩
  · exact ⟨⟨fun _ => e2, fun _ => e1⟩, fun h => absurd e2 h⟩
  · refine ⟨⟨fun h => absurd h e1, fun h => absurd h e2⟩, fun _ => ?_⟩
    obtain ⟨w, c, d, h, _⟩ := ((recI_inv hs hf).2 n e2 ht).spawned
    exact ⟨w, c, _, _, d, h⟩

/-- C10: no step of another thread changes anything in the record of a live created thread.

Missing: as above. -/
theorem C10_private_partial {s s' : S} (hs : ReachA Clean s) {u t : Tid} {n : NodeId} {i : Inp}
    (hu : live s u) (hou : owns s u n) (hm : n ≠ .main) (hb : born s.g.tr = false) (hne : t ≠ u)
    (hn : next s (.step t i) = some s') : s'.g.nodes n = s.g.nodes n := by
  rcases owns_cases hs hb hu hou with ⟨e1, _⟩ | ⟨_, _, f', hf', _, hc⟩
  · exact absurd e1 hm
  · have := move_of_next hn
    cases this with
    | @go _ f rest ok v r hd ht hf =>
      obtain ⟨g', nx, sp⟩ := r
      have key := nodes_keep hs ht hf (Ne.symm hne) hf' hc
      rw [applyRes_g]
      split
      · exact key
      · exact key
    | call => rfl
    | unwind => rfl
    | deliver => rfl
    | interrupt => rfl

/-- C10, the user data: monitor_get_user_data in the initial thread returns the value given to main's
data last; in a created thread it returns the value that init-thread returned in this thread; before
that, the value that pre-create returned for this thread, or 0.

Missing: as above. -/
theorem C10_user_data_partial {s : S} (hs : ReachA Clean s) :
    Always (fun old t e => ∀ d, e = .gotData d →
      (t = mainOf old → d = lastData old) ∧
      (t ≠ mainOf old → (∀ k v, (t, .initThreadRet k v) ∈ old → d = v) ∧
        (d = 0 ∨ (∃ k, (t, .initThreadRet k d) ∈ old) ∨
          ∃ w c st ar, madeBy old t w c st ar (some d)))) s.g.tr := by
  refine (cleanOrder_inv hs).imp ?_
  intro old t e h d he
  subst he
  exact h

/-- C10: the record a thread is made with is an element of one of the arrays allocated so far, in every
execution. -/
theorem C10_inside_array {s : S} (hs : Reach s) {w u : Tid} {c st ar : Nat} {n : NodeId} {d : Data}
    (h : (w, .spawn c u n st ar d) ∈ s.g.tr) :
    ∃ k i, n = .slot k i ∧ k ≤ s.g.nArr ∧ i < arraySize := by
  refine glob_inv (A := fun _ _ => True) (GI := fun g => ∀ w c u n st ar d,
    (w, Ev.spawn c u n st ar d) ∈ g.tr → inArray g n)
    (fun _ _ _ _ _ _ _ h => by cases h) ?_ (fun _ h => h) ?_ hs w c u n st ar d h
  · intro s t f rest ok v g' nx sp hr _ ht ih h w c u n st ar d hm
    have hft : f ∈ s.th t := by rw [ht]; exact List.mem_cons_self
    obtain ⟨hG, hF⟩ := array_inv hr
    have hmono := nArr_mono hG h
    have hF := hF t f hft
    have key : (w, Ev.spawn c u n st ar d) ∈ s.g.tr ∨ f.threadRec = some n := by
      clear ih hF hG hmono ht hft
      cases f <;> fstep_cases h <;> first
        | exact Or.inl hm
        | (simp [listInit, G.emit, G.upd] at hm; exact Or.inl hm)
        | (simp [G.emit] at hm; rcases hm with ⟨_, _, _, rfl, _⟩ | hm
           · exact Or.inr rfl
           · exact Or.inl hm)
    rcases key with h | h
    · exact inArray_mono hmono (ih w c u n st ar d h)
    · exact inArray_mono hmono (hF n h)
  · intro s t real _ ih w c u n st ar d hm
    rcases List.mem_cons.1 hm with e | hm
    · cases e
    · exact ih w c u n st ar d hm

/-- Four threads at once: main and two created ones with a record each, and one just created that has
not stored its record yet; thread 1 has given its record back before, and the new thread got it. -/
example : ∃ s, ReachA Clean s ∧ born s.g.tr = false ∧ live s 0 ∧ live s 2 ∧ live s 3 ∧ live s 4 ∧
    owns s 0 .main ∧ owns s 2 (.slot 0 1) ∧ owns s 3 (.slot 0 0) ∧ owns s 4 (.slot 0 2) ∧
    (∃ a, alloc s.g true = some a ∧ a.n = .slot 0 3) ∧
    (s.g.nodes (.slot 0 1)).data = 6 ∧ (s.g.nodes (.slot 0 0)).data = 7 := by
  obtain ⟨s, hr, hp⟩ := exists_of_runA (A := Clean) (ls := recordReused ++ createN 0 95 96 12)
    (p := fun s => decide (born s.g.tr = false ∧ live s 0 ∧ live s 2 ∧ live s 3 ∧ live s 4 ∧
    owns s 0 .main ∧ owns s 2 (.slot 0 1) ∧ owns s 3 (.slot 0 0) ∧ owns s 4 (.slot 0 2) ∧
    (alloc s.g true).map (·.n) = some (.slot 0 3) ∧
    (s.g.nodes (.slot 0 1)).data = 6 ∧ (s.g.nodes (.slot 0 0)).data = 7)) (by decide +kernel)
  obtain ⟨h1, h2, h3, h4, h5, h6, h7, h8, h9, h10, h11⟩ := of_decide_eq_true hp
  refine ⟨s, hr, h1, h2, h3, h4, h5, h6, h7, h8, h9, ?_, h11⟩
  cases ha : alloc s.g true with
  | none => rw [ha] at h10; cases h10
  | some a => rw [ha] at h10; exact ⟨a, rfl, by simpa using h10⟩

/-- Each thread asks for its data: main, thread 2, and thread 3, whose record thread 1 had before. -/
example : ∃ s, ReachA Clean s ∧ (0, .gotData 4) ∈ s.g.tr ∧ (2, .gotData 6) ∈ s.g.tr ∧
    (3, .gotData 7) ∈ s.g.tr := by
  obtain ⟨s, hr, hp⟩ := exists_of_runA (A := Clean)
    (ls := T 0 6 ++ V 0 4 ++ T 0 2 ++ create1 0 70 71 9 ++ begin 1 5 ++ createN 0 80 81 10 ++
      begin 2 6 ++ T 1 6 ++ createN 0 90 91 11 ++ begin 3 7 ++ C 0 .data ++ T 0 1 ++ C 2 .data ++
      T 2 1 ++ C 3 .data ++ T 3 1)
    (p := fun s => decide ((0, .gotData 4) ∈ s.g.tr ∧ (2, .gotData 6) ∈ s.g.tr ∧
      (3, .gotData 7) ∈ s.g.tr)) (by decide +kernel)
  exact ⟨s, hr, of_decide_eq_true hp⟩

/-- C10 fails for a thread that has given its record back and is in the destructors of its
thread-specific data (pthread.c:434-437 clears the record, but the key's value still points to
it): thread 3 has the same record, and a destructor of thread 1 that asks for the data gets thread
3's. -/
theorem C10_dying_shares : ∃ s, Reach s ∧ s.th 1 = [.tdtor] ∧ live s 3 ∧
    owns s 1 (.slot 0 0) ∧ owns s 3 (.slot 0 0) ∧ (3, .initThreadRet 3 7) ∈ s.g.tr ∧
    (1, .initThreadRet 1 5) ∈ s.g.tr ∧ (1, .gotData 7) ∈ s.g.tr := by
  obtain ⟨s, hr, hp⟩ := exists_of_run (ls := recordReused ++ C 1 .data ++ T 1 1)
    (p := fun s => decide (s.th 1 = [.tdtor] ∧ live s 3 ∧
    owns s 1 (.slot 0 0) ∧ owns s 3 (.slot 0 0) ∧ (3, .initThreadRet 3 7) ∈ s.g.tr ∧
    (1, .initThreadRet 1 5) ∈ s.g.tr ∧ (1, .gotData 7) ∈ s.g.tr)) (by decide +kernel)
  exact ⟨s, hr, of_decide_eq_true hp⟩

/-- C10 fails outside `Clean`: a thread that forked in its start routine returns from it in the child
and puts the record of a thread created there back on the free list; two live threads
get it. -/
theorem C10_orphan_shares : ∃ s, Reach s ∧ live s 2 ∧ live s 3 ∧
    owns s 2 (.slot 0 0) ∧ owns s 3 (.slot 0 0) := by
  obtain ⟨s, hr, hp⟩ := exists_of_run (ls := orphanCleans ++ T 1 4 ++ createN 1 90 91 11 ++ T 3 1)
    (p := fun s => decide (live s 2 ∧ live s 3 ∧
    owns s 2 (.slot 0 0) ∧ owns s 3 (.slot 0 0))) (by decide +kernel)
  exact ⟨s, hr, of_decide_eq_true hp⟩

end Libmonitor.Proc
