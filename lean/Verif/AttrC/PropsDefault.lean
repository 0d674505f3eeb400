import Verif.AttrC.Default
import Verif.AttrC.Props

/-!
# C81: without a client that asks for other sizes, attribute objects are never written

The default monitor_reset_stacksize (callback.c:119-124) answers with the size that it is told.
-/

namespace Libmonitor.AttrC

open Attr (Obj)

/-- C81: if the client always answers with the size that it is told, the application's objects are at all
times what the application has made of them, whichever threads use them at the same time, fork, or are
ended in pthread_create. -/
theorem C81_untouched {d0 : Nat} {s : S} (hs : ReachA Agrees d0 s) (a : Id) : s.obj a = wish a s.tr :=
  (plain_inv hs).obj a

/-- C81: the library sets no size, and the real pthread_create gets the pointer that the application
passed, to an object that is as the application has made it. -/
theorem C81_passed {d0 : Nat} {s : S} (hs : ReachA Agrees d0 s) :
    Always (fun old e => (∀ c p n ok, e ≠ .set c p n ok) ∧
      ∀ c p o r, e = .create c p o r → ∃ a, .enter c a ∈ old ∧ p = orig a ∧ o = a.bind (wish · old)) s.tr :=
  (plain_inv hs).tr

/-- C81: and with such a client no object is used that is not initialised, except the application's own
if the application has not initialised it. -/
theorem C81_initialised {d0 : Nat} {s : S} (hs : ReachA Agrees d0 s) :
    Always (fun old e => ∀ c p, e = .ub c p → ∃ a, p = .app a ∧ wish a old = none) s.tr :=
  C79_initialised (weaken (fun _ _ _ => trivial) hs)

/-- Whether the label is allowed by `Agrees`. -/
def agrees (s : S) : Lbl → Bool
  | .step t _ n => match s.th t with
    | .call c :: _ => match s.pc c with
      | .ask old => n == old
      | _ => true
    | _ => true
  | _ => true

theorem agrees_of {s : S} {l : Lbl} (h : agrees s l = true) : Agrees s l := by
  intro t ok n c rest old hl ht hp
  subst hl
  simpa [agrees, ht, hp] using h

theorem reach_agrees {d0 : Nat} {s : S} (hs : ReachA Agrees d0 s) : ∀ {ls : List Lbl} {P : S → Bool},
    allowed agrees s ls = true → (run s ls).any P = true → ∃ s', ReachA Agrees d0 s' ∧ P s' = true := by
  intro ls
  induction ls generalizing s with
  | nil => intro P _ h; exact ⟨s, hs, by simpa [run] using h⟩
  | cons l r ih =>
    intro P ha h
    simp only [allowed, Bool.and_eq_true] at ha
    simp only [run] at h
    cases hn : next s l with
    | none => rw [hn] at h; simp at h
    | some s' =>
      rw [hn] at h ha
      exact ih (.next hs (agrees_of ha.1) hn) ha.2 (by simpa using h)

/-- Threads 0 and 1 make threads with the same object, the application changes it meanwhile, thread 2
forks inside of its own call without an object; both threads' objects have the size that the application
has set last. -/
example : ∃ s, ReachA Agrees 1000 s ∧ decide (s.obj 7 = some { size := some 50 } ∧
    .create 0 (.app 7) (some { size := some 50 }) 0 ∈ s.tr ∧
    .create 1 (.app 7) (some { size := some 50 }) 0 ∈ s.tr ∧ .create 2 .null none 0 ∈ s.tr ∧ .fork ∈ s.tr) = true :=
  reach_agrees .init
    (ls := setup ++ [.create 0 (some 7), .step 0 false 0, go 0, .create 1 (some 7), .step 1 false 0, go 1, go 1 100,
      .create 2 none, .step 2 false 0, go 2, go 2, .use 3 (.size 7 50), go 0 100, go 0, go 1, go 0, go 1,
      .out 2, .fork 2, .back 2, go 2 1000, go 2])
    (P := fun s => decide (s.obj 7 = some { size := some 50 } ∧
      .create 0 (.app 7) (some { size := some 50 }) 0 ∈ s.tr ∧
      .create 1 (.app 7) (some { size := some 50 }) 0 ∈ s.tr ∧ .create 2 .null none 0 ∈ s.tr ∧ .fork ∈ s.tr))
    (by decide +kernel) (by decide +kernel)

end Libmonitor.AttrC
