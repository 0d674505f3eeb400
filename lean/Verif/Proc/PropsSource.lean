import Verif.Proc.Source
import Verif.Proc.Sched
/-!
# C85: where the client's data come from
-/

namespace Libmonitor.Proc

/-- **C85.** In every execution, also those with races, handlers, longjmp and forks that other claims
exclude: whatever libmonitor gives a callback, or returns from monitor_get_user_data, is NULL or was returned
by a callback before: by monitor_pre_fork for monitor_init_process, by that very call for monitor_post_fork,
by monitor_pre_fork or monitor_init_process for monitor_fini_process (or the data of the thread that called
monitor_real_fork), by monitor_thread_pre_create or monitor_init_thread for monitor_init_thread and
monitor_thread_post_create. -/
theorem C85_sourced {s : S} (hs : Reach s) : Always sourced s.g.tr := (src_inv hs).1.ev

/-- **C85**, without a client: with the default callbacks all data are NULL. -/
theorem C85_default {s : S} (hs : Reach s) (hd : Always byDefault s.g.tr) {t : Tid} {e : Ev} {d : Data}
    (hm : (t, e) ∈ s.g.tr) (he : e.datum = some d) : d = 0 :=
  default_zero (C85_sourced hs) hd t e d hm he

instance (old : Hist) (t : Tid) (e : Ev) : Decidable (byDefault old t e) := by
  unfold byDefault
  split
  · infer_instance
  · infer_instance
  · exact decidable_of_iff (old.any fun x => decide (x.2 = Ev.initProcess _) = true) (by
      simp only [List.any_eq_true, decide_eq_true_eq]
      exact ⟨fun ⟨⟨u, _⟩, h, e⟩ => ⟨u, e ▸ h⟩, fun ⟨u, h⟩ => ⟨_, h, rfl⟩⟩)
  · rename_i d
    exact decidable_of_iff (old.any fun x => match x.2 with | .initThread _ d' => decide (d' = d) | _ => false) (by
      simp only [List.any_eq_true]
      constructor
      · rintro ⟨⟨u, e⟩, h, k⟩
        cases e <;> first | (cases k; done) | skip
        rename_i i d'
        have k : d' = d := of_decide_eq_true k
        exact ⟨u, i, k ▸ h⟩
      · rintro ⟨u, i, h⟩
        exact ⟨_, h, decide_eq_true rfl⟩)
  · infer_instance

def decAlways (P : Hist → Tid → Ev → Prop) [∀ h t e, Decidable (P h t e)] : (h : Hist) → Decidable (Always P h)
  | [] => .isTrue trivial
  | (_, _) :: old => @instDecidableAnd _ _ _ (decAlways P old)

instance (P : Hist → Tid → Ev → Prop) [∀ h t e, Decidable (P h t e)] (h : Hist) : Decidable (Always P h) := decAlways P h

/-- Two threads, exit: data of all kinds. -/
example : ∃ s, Reach s ∧ (0, .initProcess 0) ∈ s.g.tr ∧ (1, .initThread 1 9) ∈ s.g.tr ∧
    (0, .preCreateRet 0 9) ∈ s.g.tr := by
  obtain ⟨s, hr, hp⟩ := exists_of_run (ls := three)
    (p := fun s => decide ((0, .initProcess 0) ∈ s.g.tr ∧ (1, .initThread 1 9) ∈ s.g.tr ∧
      (0, .preCreateRet 0 9) ∈ s.g.tr)) (by decide +kernel)
  exact ⟨s, hr, of_decide_eq_true hp⟩

/-- The default callbacks: a thread is created, runs, and main forks; the child asks for its data. -/
example : ∃ s, Reach s ∧ Always byDefault s.g.tr ∧ (1, .initThreadRet 1 0) ∈ s.g.tr ∧
    (0, .preForkRet 1 0) ∈ s.g.tr ∧ (0, .childReset 0) ∈ s.g.tr ∧ (0, .initProcessRet 0) ∈ s.g.tr ∧
    (0, .gotData 0) ∈ s.g.tr := by
  obtain ⟨s, hr, hp⟩ := exists_of_run (ls := toMain ++ create1 0 70 71 0 ++ begin 1 0 ++ C 0 .fork ++ T 0 2 ++
      [.fork 0] ++ T 0 7 ++ C 0 .data ++ T 0 1)
    (p := fun s => decide (Always byDefault s.g.tr ∧ (1, .initThreadRet 1 0) ∈ s.g.tr ∧
    (0, .preForkRet 1 0) ∈ s.g.tr ∧ (0, .childReset 0) ∈ s.g.tr ∧ (0, .initProcessRet 0) ∈ s.g.tr ∧
    (0, .gotData 0) ∈ s.g.tr)) (by decide +kernel)
  exact ⟨s, hr, of_decide_eq_true hp⟩

/-- The exception: after monitor_real_fork in a thread the child's monitor_fini_process gets the data of that
thread. -/
theorem C85_real_fork : ∃ s, Reach s ∧ (1, .finiProcess .normal 7) ∈ s.g.tr ∧ (1, .realReset 7) ∈ s.g.tr ∧
    (1, .initThreadRet 1 7) ∈ s.g.tr := by
  obtain ⟨s, hr, hp⟩ := exists_of_run (ls := toMain ++ create1 0 70 71 9 ++ begin 1 7 ++ C 1 .realFork ++
      [.fork 1] ++ T 1 1 ++ C 1 .exit ++ T 1 6)
    (p := fun s => decide ((1, .finiProcess .normal 7) ∈ s.g.tr ∧ (1, .realReset 7) ∈ s.g.tr ∧
    (1, .initThreadRet 1 7) ∈ s.g.tr)) (by decide +kernel)
  exact ⟨s, hr, of_decide_eq_true hp⟩

end Libmonitor.Proc
