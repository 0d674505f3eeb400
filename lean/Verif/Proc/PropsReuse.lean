import Verif.Proc.Reuse
import Verif.Proc.Sched
/-!
# C86: thread records are used again

The memory for thread records comes in arrays that are never freed (pthread.c:387-392).  How many of them a
process needs depends on how many records are out at the same time, not on how many threads it makes in its
life; but a call of pthread_create that fails keeps its record.
-/

namespace Libmonitor.Proc

/-- C86, the account: in every execution of a process the records cut from the arrays are those on the free
list and those that were given to a call and not given back. -/
theorem C86_account {s : S} {M : List Nat} {R : List Tid} (h : Exec Stay Any s M R) :
    records s.g + R.length = s.g.free.length + M.length := account h

/-- C86, the calls: no call is given two records. -/
theorem C86_one_each {s : S} {M : List Nat} {R : List Tid} (h : Exec Stay Any s M R) : M.Nodup :=
  (mi_inv (fun _ _ h => h) h).1

/-- C86, the bound: if there were never more than `k` records out at the same time, then `k` records were cut
from the arrays, however many threads there were. -/
theorem C86_peak {k : Nat} {s : S} {M : List Nat} {R : List Tid} (h : Exec Stay (OutB k) s M R) :
    records s.g ≤ k := peak h

/-- C86: if at no time there were more than `k` calls of pthread_create whose threads were not there yet, were
still running, or never came to their start routine, then `k` records were enough.

Missing: executions outside `CleanEnd` (see C71; `C86_blocked`), and creations that fail, which count for
ever (`C86_failed`), as do threads that end in their init-thread callback (`C86_ended_early`). -/
theorem C86_reused_partial {k : Nat} {s : S} {M : List Nat} {R : List Tid}
    (h : Exec CleanStay (PastB k) s M R) : records s.g ≤ k :=
  peak (h.mono (fun _ _ h => h.2) fun _ _ _ he hb => out_past he hb)

/-- Thread 1 runs and ends, then thread 2 runs: one record. -/
example : ∃ s M R, Exec CleanStay (PastB 1) s M R ∧ M = [1, 0] ∧ R = [1] ∧ records s.g = 1 ∧
    .btApp (.slot 0 0) ∈ s.th 2 := by
  obtain ⟨s, M, R, h, hp⟩ := exists_of_runX (A := CleanStay) (B := PastB 1)
    (ls := toMain ++ create1 0 70 71 9 ++ begin 1 5 ++ T 1 7 ++ createN 0 80 81 10 ++ begin 2 6)
    (p := fun s M R => decide (M = [1, 0] ∧ R = [1] ∧ records s.g = 1 ∧ .btApp (.slot 0 0) ∈ s.th 2))
    (by decide +kernel) (by decide +kernel)
  exact ⟨s, M, R, h, of_decide_eq_true hp⟩

/-- Two threads at the same time: two records are out, and one after thread 1 has given its back. -/
example : ∃ s M R, Exec Stay (OutB 2) s M R ∧ M = [1, 0] ∧ R = [1] ∧ records s.g = 2 ∧
    s.g.free = [.slot 0 0] := by
  obtain ⟨s, M, R, h, hp⟩ := exists_of_runX (A := Stay) (B := OutB 2) (ls := oneDying)
    (p := fun s M R => decide (M = [1, 0] ∧ R = [1] ∧ records s.g = 2 ∧ s.g.free = [.slot 0 0]))
    (by decide +kernel) (by decide +kernel)
  exact ⟨s, M, R, h, of_decide_eq_true hp⟩

/-- `m + 1` calls of pthread_create have failed in the initial thread, and nothing else happened. -/
theorem failed_calls (m : Nat) : ∃ g th M, Exec Stay Any ⟨g, setTh th 0 [.mainApp]⟩ M [] ∧ Alone g ∧
    M.length = m + 1 := by
  have base : ∃ g th M, Exec Stay Any ⟨g, setTh th 0 [.mainApp]⟩ M [] ∧ Alone g ∧ M.length = 1 := by
    obtain ⟨s, M, R, h, hp⟩ := exists_of_runX (A := Stay) (B := Any)
      (ls := toMain ++ C 0 (.create 70 71) ++ T 0 10 ++ V 0 9 ++ T 0 4 ++ F 0 ++ T 0 2)
      (p := fun s M R => decide (R = [] ∧ M.length = 1 ∧ s.th 0 = [.mainApp] ∧ s.g.hasUsed = true ∧
        s.g.tsd 0 = some .main ∧ s.g.main.magic = true ∧ s.g.main.ignore = false ∧ s.g.initCalled = true ∧
        s.g.supportDone = true ∧ s.g.dead = false ∧ s.g.lock = false ∧ s.g.free = [] ∧ s.g.nextTid = 1 ∧
        s.g.cookie = false))
      trivial (by decide +kernel)
    obtain ⟨eR, hM, ht, h1, h2, h3, h4, h5, h6, h7, h8, h9, h10, h11⟩ := of_decide_eq_true hp
    subst eR
    refine ⟨s.g, s.th, M, ?_, ⟨h1, h2, h3, h4, h5, h6, h7, h8, h9, h10, h11⟩, hM⟩
    rw [setTh_id ht]
    exact h
  induction m with
  | zero => exact base
  | succ m ih =>
    obtain ⟨g, th, M, h, ha, hM⟩ := ih
    obtain ⟨g', c, h', ha'⟩ := one_more h ha
    exact ⟨g', th, c :: M, h', ha', by simp [hM]⟩

/-- The record of a creation that fails is lost (pthread.c:1135-1177 has no code to give it back): for every
`m` there is an execution in which no thread was ever made, and `m + 1` records are gone.  The memory of a
process that goes on trying grows without bound. -/
theorem C86_failed (m : Nat) : ∃ s M, Exec Stay Any s M [] ∧ s.g.nextTid = 1 ∧ (∀ u, u ≠ 0 → s.th u = []) ∧
    s.th 0 = [.mainApp] ∧ M.length = m + 1 ∧ records s.g = m + 1 := by
  obtain ⟨g, th, M, h, ha, hM⟩ := failed_calls m
  refine ⟨_, M, h, ha.tid, fun u hu => fresh_inv h.reach u ?_, by simp [setTh], hM, ?_⟩
  · show g.nextTid ≤ u
    rw [ha.tid]; omega
  · have := account h
    have e : g.free = [] := ha.free
    simp only [e, List.length_nil] at this
    show records g = m + 1
    simp only [Nat.add_zero, Nat.zero_add] at this
    omega

/-- What happens when there is no memory for another array: MONITOR_ERROR (pthread.c:388-390) is reached with
the list lock held.  In a statically linked program the exit inside errx is the override of libmonitor (in the
model: a call of exit from inside monitor_make_thread_node).  After 600 failed creations the initial thread is
in the 601st; the begin-exit callback was called inside the lock, and monitor_thread_shootdown waits for the
lock that its own thread holds.  There is no other thread: the process that was to end with an error message
hangs, without fini-process. -/
theorem C86_error_in_lock : ∃ s c, Reach s ∧ s.g.lock = true ∧ alloc s.g false = none ∧
    s.th 0 = [.sd1, .epFini0 .normal, .xExit, .app, .mk1 c .main 70 71 0, .mainApp] ∧
    (0, .beginExitRet .normal) ∈ s.g.tr ∧ (∀ u, u ≠ 0 → s.th u = []) ∧
    ∀ ok v, next s (.step 0 (.go ok v)) = none := by
  obtain ⟨g, th, M, x, a, hM⟩ := failed_calls 599
  obtain ⟨g, c, x, a⟩ := more1 x a
  have hp : g.pos = arraySize := by
    have h1 := account x
    have h2 := pos_pos x.reach
    have h3 : records g = 600 := by
      have e : g.free = [] := a.free
      simp only [e, List.length_nil, hM] at h1
      simpa using h1
    simp only [records, arraySize] at h3 ⊢
    have h2 : g.nArr = 0 ∨ 1 ≤ g.pos := h2
    omega
  have x := main_go0 true 0 (l := [.mk1 c .main 70 71 0]) (g' := { g with lock := true }) x a.dead (by
    simp [fstep, cont, a.lock]) rfl rfl
  have hl : alloc { g with lock := true } false = none := by simp [alloc, a.free, hp]
  have hg : getTn { g with lock := true } 0 = some .main := by
    have := a.magic
    simp only [G.main] at this
    simp [getTn, a.used, a.tsd, this]
  have b1 : ({ g with lock := true } : G).dead = false := a.dead
  have b2 : ({ g with lock := true } : G).cookie = false := a.cookie
  have b3 : ({ g with lock := true } : G).hasUsed = true := a.used
  have b4 : ({ g with lock := true } : G).lock = true := rfl
  have b5 : ({ g with lock := true } : G).nextTid = 1 := a.tid
  revert x hl hg b1 b2 b3 b4 b5
  generalize ({ g with lock := true } : G) = k
  intro x hl hg b1 b2 b3 b4 b5
  have n1 : next ⟨k, setTh th 0 [.mk1 c .main 70 71 0, .mainApp]⟩ (.step 0 .interrupt) =
      some ⟨k, setTh th 0 [.app, .mk1 c .main 70 71 0, .mainApp]⟩ := by
    simp [next, step, b1, setTh_self, setTh_setTh]
  have x := Exec.next (l := .step 0 .interrupt) x trivial n1 trivial
  have n2 : next ⟨k, setTh th 0 [.app, .mk1 c .main 70 71 0, .mainApp]⟩ (.step 0 (.call .exit)) =
      some ⟨k, setTh th 0 [.ep0 .normal, .xExit, .app, .mk1 c .main 70 71 0, .mainApp]⟩ := by
    simp [next, step, b1, setTh_self, Frame.foreign, Api.frames, setTh_setTh]
  have x := Exec.next (l := .step 0 (.call .exit)) x trivial n2 trivial
  simp only [takes, gives, Option.toList, List.nil_append] at x
  have x := main_go0 true 0 (l := [.ep1 .normal (some .main)]) (g' := k) x b1 (by simp [fstep, cont, hg]) rfl rfl
  have x := main_go0 true 0 (l := [.ep2 .normal (some .main)]) (g' := { k with cookie := true }) x b1
    (by simp [fstep, cont, b2]) rfl rfl
  have x := main_go0 true 0 (l := [.epBegin .normal]) x b1 rfl rfl rfl
  have x := main_go0 true 0 (l := [.sd0, .epFini0 .normal]) x b1 rfl rfl rfl
  have x := main_go0 true 0 (l := [.sd1]) x b1 (by simp only [fstep, cont]; exact if_pos b3) rfl rfl
  refine ⟨_, c, (x.mono (A' := fun _ _ => True) (fun _ _ _ => trivial) fun _ _ _ _ h => h).reach, b4, hl,
    by simp [setTh], List.mem_cons_self,
    fun u hu => fresh_inv x.reach u ?_, fun ok v => ?_⟩
  · show k.nextTid ≤ u
    rw [b5]; omega
  · have b6 : (G.emit ((({ k with cookie := true } : G).upd .main (fun m => { m with exitWin := true })).emit 0
        (.beginExit .normal)) 0 (.beginExitRet .normal)).dead = false := b1
    have b7 : (G.emit ((({ k with cookie := true } : G).upd .main (fun m => { m with exitWin := true })).emit 0
        (.beginExit .normal)) 0 (.beginExitRet .normal)).lock = true := b4
    simp [next, step, b6, setTh_self, fstep, b7]

/-- A thread that ends with monitor_block_shootdown in effect keeps its record: thread 1 has run and is gone,
and thread 2 gets another record. -/
theorem C86_blocked : ∃ s M R, Exec (fun s l => Clean s l ∧ Stay s l) (PastB 1) s M R ∧ records s.g = 2 ∧
    R = [] := by
  obtain ⟨s, M, R, h, hp⟩ := exists_of_runX (A := fun s l => Clean s l ∧ Stay s l) (B := PastB 1)
    (ls := toMain ++ create1 0 70 71 9 ++ begin 1 5 ++ C 1 (.block true) ++ T 1 4 ++ createN 0 80 81 10)
    (p := fun s _ R => decide (records s.g = 2 ∧ R = []))
    (by decide +kernel) (by decide +kernel)
  exact ⟨s, M, R, h, of_decide_eq_true hp⟩

/-- A thread that ends in its init-thread callback keeps its record: thread 1 is gone, and thread 2 gets
another one. -/
theorem C86_ended_early : ∃ s M R, Exec CleanStay Any s M R ∧ records s.g = 2 ∧ R = [] ∧ s.th 1 = [] ∧
    s.th 2 ≠ [] := by
  obtain ⟨s, M, R, h, hp⟩ := exists_of_runX (A := CleanStay) (B := Any)
    (ls := toMain ++ create1 0 70 71 9 ++ T 1 4 ++ U 1 ++ T 1 2 ++ createN 0 80 81 10)
    (p := fun s _ R => decide (records s.g = 2 ∧ R = [] ∧ s.th 1 = [] ∧ s.th 2 ≠ []))
    trivial (by decide +kernel)
  exact ⟨s, M, R, h, of_decide_eq_true hp⟩

end Libmonitor.Proc
