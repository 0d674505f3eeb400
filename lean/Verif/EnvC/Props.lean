import Verif.EnvC.Lemmas

/-!
# C82: the environment of unmonitored programs in programs with several threads
-/

namespace Libmonitor.EnvC

open Fork (Str)

/-- C82, the part that holds: if, since the call began, no other call has stored into the static array, the
new program gets exactly the environment given, without the strings that mention LD_PRELOAD.  Missing: other
calls in progress, see `C82_mixed`. -/
theorem C82_exact_partial {s : S} (hs : Reach s) {c : Call} {l : List Str} (h : Ev.exec c l ∈ s.tr)
    (hq : Quiet c s.tr) : (∃ env, Ev.enter c env ∈ s.tr) ∧ ∀ env, Ev.enter c env ∈ s.tr → Kept env l := by
  obtain ⟨h1, -, h3⟩ := (inv hs).ex c l h
  refine ⟨⟨_, h1⟩, fun env he => ?_⟩
  rw [h3 (.inl hq), ← ((inv hs).ent c env he).2]
  exact kept_W _

/-- C82, the part that holds: a program whose environment has more than 248 strings gets it right whatever
other calls do. -/
theorem C82_large_partial {s : S} (hs : Reach s) {c : Call} {l env : List Str} (h : Ev.exec c l ∈ s.tr)
    (he : Ev.enter c env ∈ s.tr) (hl : 248 < env.length) : Kept env l := by
  obtain ⟨h1, -, h3⟩ := (inv hs).ex c l h
  have e := ((inv hs).ent c env he).2
  have : large (s.env c) = true := by
    simp only [large, Fork.initEnvironSize, e, decide_eq_true_eq]
    omega
  rw [h3 (.inr this), e]
  exact kept_W _

/-- C82: whatever other calls do, no string that mentions LD_PRELOAD gets into a new program, and every
string comes from an environment that was given to some call. -/
theorem C82_no_preload {s : S} (hs : Reach s) {c : Call} {l : List Str} (h : Ev.exec c l ∈ s.tr) :
    ∀ x ∈ l, ¬ Mentions x ∧ ∃ d env, Ev.enter d env ∈ s.tr ∧ x ∈ env := by
  intro x hx
  obtain ⟨h1, h2⟩ := ((inv hs).ex c l h).2.1 x hx
  refine ⟨fun k => ?_, h2⟩
  rw [show Fork.contains Fork.ldPreload x = true from (Fork.contains_iff _ _).2 k] at h1
  cases h1

/-- C82: no call ever uses a cell outside of its array, neither when it fills it nor when the kernel reads
it, even if the terminating NULL has been overwritten by another call. -/
theorem C82_in_bounds {s : S} (hs : Reach s) (c : Call) : Ev.bad c ∉ s.tr := (inv hs).bad c

def runs (s : S) : List Lbl → Option S
  | [] => some s
  | l :: ls => match next s l with
    | some s' => runs s' ls
    | none => none

theorem reach_runs {s s' : S} (hs : Reach s) : ∀ {ls}, runs s ls = some s' → Reach s' := by
  intro ls
  induction ls generalizing s with
  | nil => intro h; cases h; exact hs
  | cons l ls ih =>
    intro h
    simp only [runs] at h
    split at h
    · rename_i s1 h1; exact ih (.next hs h1) h
    · cases h

theorem exists_runs {ls : List Lbl} {tr : List Ev} (h : (runs {} ls).map (·.tr) = some tr) :
    ∃ s, Reach s ∧ s.tr = tr := by
  cases e : runs {} ls with
  | none => rw [e] at h; cases h
  | some s => rw [e] at h; exact ⟨s, reach_runs .init e, by simpa using h⟩

def g (t : Tid) : Lbl := .go t true

def strA : Str := "A=1".toList
def strB : Str := "B=1".toList
def strC : Str := "A=2".toList
def strP : Str := "LD_PRELOAD=x".toList

/-- C82 is false as stated: two threads start programs at the same time, and the one that is started gets one
string of its own environment and one of the other's. -/
theorem C82_mixed : ∃ s, Reach s ∧ Ev.enter 0 [strA, strB] ∈ s.tr ∧ Ev.enter 1 [strC] ∈ s.tr ∧
    Ev.exec 0 [strC, strB] ∈ s.tr ∧
    ¬ Kept [strA, strB] [strC, strB] ∧ ¬ Kept [strC] [strC, strB] := by
  obtain ⟨s, hs, h⟩ := exists_runs (ls := [.call 0 [strA, strB], g 0, g 0, .call 1 [strC], g 1, g 1, g 0, g 0,
    g 0, g 0, g 0, g 0, g 0, g 0, g 0, g 0]) (tr := [.exec 0 [strC, strB], .store 0 2 none,
    .store 0 1 (some strB), .store 1 0 (some strC), .enter 1 [strC], .store 0 0 (some strA),
    .enter 0 [strA, strB]]) (by decide +kernel)
  refine ⟨s, hs, by simp [h], by simp [h], by simp [h], ?_, ?_⟩
  · intro k
    cases k with
    | drop h _ =>
      have := (Fork.contains_iff _ _).2 h
      revert this; decide +kernel
  · intro k
    cases k with
    | drop h _ =>
      have := (Fork.contains_iff _ _).2 h
      revert this; decide +kernel
    | keep _ h => cases h

/-- C82 is false also for calls in one thread: a signal handler that tries to start a program between the
copy and exec, and fails, changes the environment of the program that is started then. -/
theorem C82_handler : ∃ s, Reach s ∧ Ev.enter 0 [strA, strB] ∈ s.tr ∧ Ev.fail 1 ∈ s.tr ∧
    Ev.exec 0 [strC] ∈ s.tr ∧ ¬ Kept [strA, strB] [strC] := by
  obtain ⟨s, hs, h⟩ := exists_runs (ls := [.call 0 [strA, strB], g 0, g 0, g 0, g 0, g 0, .interrupt 0,
    .call 0 [strC], g 0, g 0, g 0, g 0, g 0, g 0, g 0, g 0, .go 0 false, g 0, g 0, g 0, g 0, g 0, g 0])
    (tr := [.exec 0 [strC], .fail 1, .store 1 1 none, .store 1 0 (some strC), .enter 1 [strC],
    .store 0 2 none, .store 0 1 (some strB), .store 0 0 (some strA),
    .enter 0 [strA, strB]]) (by decide +kernel)
  refine ⟨s, hs, by simp [h], by simp [h], by simp [h], ?_⟩
  intro k
  cases k with
  | drop h _ =>
    have := (Fork.contains_iff _ _).2 h
    revert this; decide +kernel

/-- A call that fails, another one in a forked child, with LD_PRELOAD in its environment; nothing else is
stored meanwhile. -/
example : ∃ s, Reach s ∧ Ev.exec 1 [strA, strB] ∈ s.tr ∧ Quiet 1 s.tr ∧
    Ev.enter 1 [strA, strP, strB] ∈ s.tr ∧ Ev.fail 0 ∈ s.tr ∧ Ev.fork ∈ s.tr := by
  obtain ⟨s, hs, h⟩ := exists_runs (ls := [.call 0 [strC], g 0, g 0, g 0, g 0, g 0, g 0, g 0, g 0, .go 0 false,
    .fork 0, .call 0 [strA, strP, strB], g 0, g 0, g 0, g 0, g 0, g 0, g 0, g 0, g 0, g 0, g 0, g 0, g 0])
    (tr := [.exec 1 [strA, strB], .store 1 2 none, .store 1 1 (some strB), .store 1 0 (some strA),
      .enter 1 [strA, strP, strB], .fork, .fail 0, .store 0 1 none, .store 0 0 (some strC), .enter 0 [strC]])
    (by decide +kernel)
  refine ⟨s, hs, by simp [h], ?_, by simp [h], by simp [h], by simp [h]⟩
  rw [h]; simp [Quiet]

/-- A large environment, and another call that stores meanwhile. -/
example : ∃ s, Reach s ∧ Ev.exec 0 (List.replicate 249 strA) ∈ s.tr ∧
    Ev.enter 0 (List.replicate 249 strA) ∈ s.tr ∧ ¬ Quiet 0 s.tr := by
  obtain ⟨s, hs, h⟩ := exists_runs (ls := [.call 0 (List.replicate 249 strA), .call 1 [strC], g 0, g 1, g 1] ++
    List.replicate 752 (g 0)) (tr := [.exec 0 (List.replicate 249 strA), .store 1 0 (some strC), .enter 1 [strC],
      .enter 0 (List.replicate 249 strA)]) (by decide +kernel)
  refine ⟨s, hs, ?_, ?_, ?_⟩ <;> rw [h]
  · exact .head _
  · exact .tail _ (.tail _ (.tail _ (.head _)))
  · exact fun k => absurd k.1 (by decide)

end Libmonitor.EnvC
