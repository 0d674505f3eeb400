import Verif.Proc.Data
/-!
# Records lie inside their arrays (pthread.c:373-392)
-/

namespace Libmonitor.Proc

/-- An element of one of the arrays allocated so far. -/
def inArray (g : G) (n : NodeId) : Prop := ∃ k i, n = .slot k i ∧ k ≤ g.nArr ∧ i < arraySize

def ArrG (g : G) : Prop :=
  g.pos ≤ arraySize ∧ g.arr ≤ g.nArr ∧ ∀ n ∈ g.free, inArray g n

theorem inArray_mono {g g' : G} (h : g.nArr ≤ g'.nArr) {n : NodeId} (hn : inArray g n) :
    inArray g' n := by
  obtain ⟨k, i, h1, h2, h3⟩ := hn
  exact ⟨k, i, h1, by omega, h3⟩

theorem alloc_inArray {g : G} {ok : Bool} {a : Got} (hG : ArrG g) (h : alloc g ok = some a) :
    g.nArr ≤ a.nArr ∧ a.pos ≤ arraySize ∧ a.arr ≤ a.nArr ∧ (∀ n ∈ a.free, n ∈ g.free) ∧
      ∃ k i, a.n = .slot k i ∧ k ≤ a.nArr ∧ i < arraySize := by
  obtain ⟨h1, h2, h3⟩ := hG
  unfold alloc at h
  split at h
  · rename_i n fs hf
    injection h with h; subst h
    refine ⟨Nat.le_refl _, h1, h2, ?_, ?_⟩
    · intro m hm; rw [hf]; exact List.mem_cons_of_mem _ hm
    · exact h3 n (by rw [hf]; exact List.mem_cons_self)
  · split at h
    · injection h with h; subst h
      exact ⟨Nat.le_refl _, by assumption, h2, by simp, _, _, rfl, h2, by assumption⟩
    · split at h
      · injection h with h; subst h
        exact ⟨Nat.le_succ _, show 1 ≤ arraySize by decide, Nat.le_refl _, by simp, _, _, rfl, Nat.le_refl _, by decide⟩
      · cases h

theorem nArr_mono {g g' : G} {t : Tid} {ok : Bool} {v : Nat} {f : Frame} {nx : Next}
    {sp : Option Frame} (hG : ArrG g) (h : fstep g t ok v f = some (g', nx, sp)) :
    g.nArr ≤ g'.nArr := by
  cases f <;> fstep_cases h <;> try exact Nat.le_refl _
  · simp only [G.emit, G.upd, resetList]; split <;> exact Nat.le_refl _
  · exact (alloc_inArray hG (by assumption)).1
  · simp only [G.emit, resetList]; split <;> exact Nat.le_refl _

theorem array_inv {A : S → Lbl → Prop} {s : S} (hs : ReachA A s) :
    ArrG s.g ∧ ∀ u h, h ∈ s.th u → ∀ n, h.threadRec = some n → inArray s.g n := by
  refine frames_inv (GI := ArrG) (FI := fun g _ h => ∀ n, h.threadRec = some n → inArray g n)
    ⟨by decide, by decide, by simp⟩ (by simp [Frame.threadRec]) ?_ (fun _ h => h)
    (fun _ _ _ h => h) ?_ ?_ (fun h => h)
    (fun h => h) (fun _ => ⟨by simp [Frame.threadRec], by simp [Frame.threadRec]⟩)
    (fun _ => by simp [Frame.threadRec]) hs
  · intro s t f rest ok v g' nx sp _ ht hG hF h
    have hfr := hF t f (by rw [ht]; exact List.mem_cons_self)
    have hmono : g'.nArr ≥ s.g.nArr := nArr_mono hG h
    refine ⟨?_, fun u f' h k hk => inArray_mono hmono (h k hk), ?_, ?_⟩
    · clear hF ht
      cases f <;> fstep_cases h <;> try exact hG
      all_goals try (refine ⟨?_, hG.2.1, ?_⟩ <;> simp [listInit, G.emit, G.upd]; done)
      · obtain ⟨h1, h2, h3⟩ := hG
        simp only [G.emit, G.upd, resetList]; split
        · exact ⟨Nat.zero_le _, h2, by simp⟩
        · exact ⟨h1, h2, h3⟩
      · obtain ⟨h1, h2, h3⟩ := hG
        refine ⟨h1, h2, ?_⟩
        intro m hm
        rcases List.mem_cons.1 hm with e | hm
        · subst e; exact hfr _ rfl
        · exact h3 m hm
      · obtain ⟨h1, h2, h3⟩ := hG
        obtain ⟨k1, k2, k3, k4, k5⟩ := alloc_inArray ⟨h1, h2, h3⟩ (by assumption)
        exact ⟨k2, k3, fun m hm => inArray_mono k1 (h3 m (k4 m hm))⟩
      · obtain ⟨h1, h2, h3⟩ := hG
        simp only [G.emit, resetList]; split
        · exact ⟨Nat.zero_le _, h2, by simp⟩
        · exact ⟨h1, h2, h3⟩
    · intro l hl h' hl'
      have hfr' : ∀ n, f.threadRec = some n → inArray g' n :=
        fun n hn => inArray_mono hmono (hfr n hn)
      clear hF ht hmono
      cases f <;> fstep_cases h <;> cases hl <;>
        (try simp only [List.mem_cons, List.not_mem_nil, or_false] at hl') <;>
        (try (rcases hl' with rfl | rfl)) <;> (try subst hl') <;>
        first
        | exact hfr'
        | (simp [Frame.threadRec]; done)
        | skip
      · rename_i n src
        cases src <;> first | exact hfr' | simp [Frame.threadRec]
      · rename_i hsrc; subst hsrc; exact hfr'
      · obtain ⟨_, _, _, _, k5⟩ := alloc_inArray hG (by assumption)
        intro n e; injection e with e; subst e; exact k5
    · intro f0 hsp
      have hfr' : ∀ n, f.threadRec = some n → inArray g' n :=
        fun n hn => inArray_mono hmono (hfr n hn)
      clear hF ht hmono
      cases f <;> fstep_cases h <;> cases hsp <;> first | exact hfr' | simp [Frame.threadRec]
  · intro g t f _ hp
    cases f <;> first | (simp [Frame.threadRec]; done) | (simp [Frame.pushable] at hp; done)
  · intro g t f n ha hf
    cases f <;> simp_all [Frame.armed, Frame.threadRec]

end Libmonitor.Proc
