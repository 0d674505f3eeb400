import Verif.Attr.Spec

/-!
# C21, C52: attributes in pthread_create
-/

namespace Libmonitor.Attr

open Spec

/-- Every call, every outcome of the external functions: no undefined behaviour; the log
in closed form. -/
theorem createNormal_cases (x : Ext) (app : Option Obj) :
    ∃ w, createNormal x { app := app } = some (w, x.createRet) ∧
      (match app with
        | some o =>
          let old := o.stackSize x.sysDefault
          if x.getOk = false then w.app = some o ∧
            w.log = [.get .app false, .create .app (some o)]
          else if x.reset old = old then w.app = some o ∧
            w.log = [.get .app true, .create .app (some o)]
          else if x.setOk = false then w.app = some o ∧
            w.log = [.get .app true, .set .app (x.reset old) false, .create .app (some o)]
          else w.app = some { o with size := some (if x.restoreOk then old else x.reset old) } ∧
            w.log = [.get .app true, .set .app (x.reset old) true,
              .create .app (some { o with size := some (x.reset old) }),
              .set .app old x.restoreOk]
        | none =>
          w.app = none ∧
          (if x.initOk = false then w.log = [.init false, .create .null none]
          else if x.getOk = false then
            w.log = [.init true, .get .dflt false, .create .null none, .destroy .dflt]
          else if x.reset x.sysDefault = x.sysDefault then
            w.log = [.init true, .get .dflt true, .create .null none, .destroy .dflt]
          else if x.setOk = false then
            w.log = [.init true, .get .dflt true, .set .dflt (x.reset x.sysDefault) false,
              .create .null none, .destroy .dflt]
          else
            w.log = [.init true, .get .dflt true, .set .dflt (x.reset x.sysDefault) true,
              .create .dflt (some { size := some (x.reset x.sysDefault) }), .destroy .dflt])) := by
  cases app with
  | some o =>
    cases hg : x.getOk with
    | false =>
      exact ⟨_, by simp [createNormal, adjust, adjustWith, World.get, World.ev, hg]; rfl,
        by simp⟩
    | true =>
      by_cases he : x.reset (o.stackSize x.sysDefault) = o.stackSize x.sysDefault
      · exact ⟨_, by simp [createNormal, adjust, adjustWith, World.get, World.ev, hg, he]; rfl,
          by simp [he]⟩
      · cases hs : x.setOk with
        | false =>
          exact ⟨_, by simp [createNormal, adjust, adjustWith, World.get, World.ev, hg, he, hs];
                       rfl, by simp [he]⟩
        | true =>
          cases hr : x.restoreOk with
          | false =>
            exact ⟨_, by simp [createNormal, adjust, adjustWith, World.get, World.ev, World.put,
              hg, he, hs, hr]; rfl, by simp [he]⟩
          | true =>
            exact ⟨_, by simp [createNormal, adjust, adjustWith, World.get, World.ev, World.put,
              hg, he, hs, hr]; rfl, by simp [he]⟩
  | none =>
    cases hi : x.initOk with
    | false =>
      exact ⟨_, by simp [createNormal, adjust, World.get, World.ev, hi]; rfl, by simp⟩
    | true =>
      cases hg : x.getOk with
      | false =>
        exact ⟨_, by simp [createNormal, adjust, adjustWith, World.get, World.ev, hi, hg]; rfl,
          by simp⟩
      | true =>
        by_cases he : x.reset x.sysDefault = x.sysDefault
        · exact ⟨_, by simp [createNormal, adjust, adjustWith, World.get, World.ev, hi, hg, he,
            Obj.stackSize]; rfl, by simp [he]⟩
        · cases hs : x.setOk with
          | false =>
            exact ⟨_, by simp [createNormal, adjust, adjustWith, World.get, World.ev, hi, hg, he,
              hs, Obj.stackSize]; rfl, by simp [he]⟩
          | true =>
            exact ⟨_, by simp [createNormal, adjust, adjustWith, World.get, World.ev, World.put,
              hi, hg, he, hs, Obj.stackSize]; rfl, by simp [he]⟩

/-- **C21.**  One call of pthread_create, every outcome of the attribute calls, ignored threads
included: no undefined behaviour; the real pthread_create is called exactly once and its
result returned; the new thread's stack has the client's size whenever that could be set and
the application's otherwise; every internal object that was initialised is destroyed exactly
once. -/
theorem C21_attr_create (x : Ext) (direct : Bool) (app : Option Obj) :
    ∃ w e, pthreadCreate x direct { app := app } = some (w, x.createRet) ∧
      creates w.log = [e] ∧
      createdSize x e = some (if direct then appSize x app else wanted x app) ∧
      destroys w.log = inits w.log ∧ w.dflt = none ∧ w.app.isSome = app.isSome := by
  cases direct with
  | true =>
    refine ⟨_, .create (if app.isSome then .app else .null) app, rfl, ?_, ?_, ?_, rfl, rfl⟩ <;>
      cases app <;> simp [World.ev, World.orig, World.get, creates, createdSize, appSize,
        destroys, inits]
  | false =>
    obtain ⟨w, h1, h2⟩ := createNormal_cases x app
    have hd : w.dflt = none := by
      simp only [createNormal, Option.bind_eq_bind, Option.bind_eq_some_iff, Prod.exists] at h1
      obtain ⟨w1, a, ha, h1⟩ := h1
      obtain ⟨w2, hw2, h1⟩ := h1
      obtain ⟨w3, hw3, h1⟩ := h1
      simp only [Option.pure_def, Option.some.injEq, Prod.mk.injEq, and_true] at h1
      subst h1
      have key : (a.destroy = false → w2.dflt = none) → w3.dflt = none := by
        intro k
        cases hdes : a.destroy with
        | true =>
          simp only [hdes, if_true] at hw3
          split at hw3
          · cases hw3
          · simp only [Option.some.injEq] at hw3; rw [← hw3]
        | false =>
          simp only [hdes, Bool.false_eq_true, if_false, Option.some.injEq] at hw3
          rw [← hw3]; exact k hdes
      apply key
      intro hdes
      have hw1 : w1.dflt = none ∧ a.attr ≠ .dflt := by
        cases app with
        | some o =>
          simp only [adjust, Option.isSome_some, if_true, adjustWith, World.get] at ha
          split at ha
          · simp only [Option.some.injEq, Prod.mk.injEq] at ha
            obtain ⟨rfl, rfl⟩ := ha; simp [World.ev]
          · split at ha
            · simp only [Option.some.injEq, Prod.mk.injEq] at ha
              obtain ⟨rfl, rfl⟩ := ha; simp [World.ev]
            · split at ha
              · simp only [Option.some.injEq, Prod.mk.injEq] at ha
                obtain ⟨rfl, rfl⟩ := ha; simp [World.ev]
              · simp only [Option.some.injEq, Prod.mk.injEq] at ha
                obtain ⟨rfl, rfl⟩ := ha; simp [World.ev, World.put]
        | none =>
          simp only [adjust, Option.isSome_none, Bool.false_eq_true, if_false, adjustWith,
            World.get] at ha
          split at ha
          · simp only [Option.some.injEq, Prod.mk.injEq] at ha
            obtain ⟨rfl, rfl⟩ := ha; simp [World.ev]
          · split at ha
            · simp only [Option.some.injEq, Prod.mk.injEq] at ha
              obtain ⟨rfl, rfl⟩ := ha; simp at hdes
            · split at ha
              · simp only [Option.some.injEq, Prod.mk.injEq] at ha
                obtain ⟨rfl, rfl⟩ := ha; simp at hdes
              · split at ha
                · simp only [Option.some.injEq, Prod.mk.injEq] at ha
                  obtain ⟨rfl, rfl⟩ := ha; simp at hdes
                · simp only [Option.some.injEq, Prod.mk.injEq] at ha
                  obtain ⟨rfl, rfl⟩ := ha; simp at hdes
      split at hw2
      · split at hw2
        · cases hw2
        · simp only [Option.some.injEq] at hw2
          subst hw2
          have := hw1.2
          cases hp : a.attr with
          | null => split <;> simp [World.ev, World.put, hw1.1]
          | app => split <;> simp [World.ev, World.put, hw1.1]
          | dflt => exact absurd hp this
      · simp only [Option.some.injEq] at hw2
        subst hw2
        simp [World.ev, hw1.1]
    simp only [pthreadCreate, Bool.false_eq_true, if_false]
    cases app with
    | some o =>
      simp only at h2
      cases hg : x.getOk with
      | false =>
        simp only [hg, if_true] at h2
        refine ⟨w, .create .app (some o), h1, ?_, ?_, ?_, hd, by simp [h2.1]⟩ <;>
          simp [h2.2, creates, createdSize, wanted, settable, hg, destroys, inits]
      | true =>
        simp only [hg, Bool.true_eq_false, if_false] at h2
        by_cases he : x.reset (o.stackSize x.sysDefault) = o.stackSize x.sysDefault
        · simp only [he, if_true] at h2
          refine ⟨w, .create .app (some o), h1, ?_, ?_, ?_, hd, by simp [h2.1]⟩ <;>
            simp [h2.2, creates, createdSize, wanted, appSize, he, destroys, inits]
        · simp only [he, if_false] at h2
          cases hs : x.setOk with
          | false =>
            simp only [hs, if_true] at h2
            refine ⟨w, .create .app (some o), h1, ?_, ?_, ?_, hd, by simp [h2.1]⟩ <;>
              simp [h2.2, creates, createdSize, wanted, settable, hs, destroys, inits]
          | true =>
            simp only [hs, Bool.true_eq_false, if_false] at h2
            refine ⟨w, _, h1, by rw [h2.2]; rfl, ?_, ?_, hd, by simp [h2.1]⟩
            · simp [createdSize, wanted, settable, hs, hg, appSize, Obj.stackSize]
            · simp [h2.2, destroys, inits]
    | none =>
      obtain ⟨ha, h2⟩ := h2
      cases hi : x.initOk with
      | false =>
        simp only [hi, if_true] at h2
        refine ⟨w, .create .null none, h1, ?_, ?_, ?_, hd, by simp [ha]⟩ <;>
          simp [h2, creates, createdSize, wanted, settable, hi, destroys, inits]
      | true =>
        simp only [hi, Bool.true_eq_false, if_false] at h2
        cases hg : x.getOk with
        | false =>
          simp only [hg, if_true] at h2
          refine ⟨w, .create .null none, h1, ?_, ?_, ?_, hd, by simp [ha]⟩ <;>
            simp [h2, creates, createdSize, wanted, settable, hg, destroys, inits]
        | true =>
          simp only [hg, Bool.true_eq_false, if_false] at h2
          by_cases he : x.reset x.sysDefault = x.sysDefault
          · simp only [he, if_true] at h2
            refine ⟨w, .create .null none, h1, ?_, ?_, ?_, hd, by simp [ha]⟩ <;>
              simp [h2, creates, createdSize, wanted, appSize, he, destroys, inits]
          · simp only [he, if_false] at h2
            cases hs : x.setOk with
            | false =>
              simp only [hs, if_true] at h2
              refine ⟨w, .create .null none, h1, ?_, ?_, ?_, hd, by simp [ha]⟩ <;>
                simp [h2, creates, createdSize, wanted, settable, hs, destroys, inits]
            | true =>
              simp only [hs, Bool.true_eq_false, if_false] at h2
              refine ⟨w, _, h1, by rw [h2]; rfl, ?_, ?_, hd, by simp [ha]⟩
              · simp [createdSize, wanted, settable, hs, hg, hi, appSize, Obj.stackSize]
              · simp [h2, destroys, inits]

/-- **C21** (restoring; needs the final setstacksize to succeed, see the witness below).
After the call the application's object has the stack size it had before and everything else
in it is the same. -/
theorem C21_attr_restored_partial (x : Ext) (direct : Bool) (o : Obj) (hr : x.restoreOk = true) :
    ∃ w o' r, pthreadCreate x direct { app := some o } = some (w, r) ∧ w.app = some o' ∧
      o'.stackSize x.sysDefault = o.stackSize x.sysDefault ∧ o'.top = o.top ∧
      (o.size.isSome → o' = o) := by
  cases direct with
  | true => exact ⟨_, o, _, rfl, rfl, rfl, rfl, fun _ => rfl⟩
  | false =>
    obtain ⟨w, h1, h2⟩ := createNormal_cases x (some o)
    simp only at h2
    have done : w.app = some o → ∃ w o' r, pthreadCreate x false { app := some o } = some (w, r) ∧
        w.app = some o' ∧ o'.stackSize x.sysDefault = o.stackSize x.sysDefault ∧ o'.top = o.top ∧
        (o.size.isSome → o' = o) := fun h => ⟨w, o, _, h1, h, rfl, rfl, fun _ => rfl⟩
    split at h2
    · exact done h2.1
    · split at h2
      · exact done h2.1
      · split at h2
        · exact done h2.1
        · simp only [hr, if_true] at h2
          refine ⟨w, _, _, h1, h2.1, ?_, rfl, ?_⟩
          · simp [Obj.stackSize]
          · cases hs : o.size with
            | none => simp
            | some n => intro _; cases o; simp_all [Obj.stackSize]

/-- A client that doubles the size. -/
def sampleExt : Ext :=
  { sysDefault := 8192, initOk := true, getOk := true, reset := fun n => 2 * n, setOk := true,
    restoreOk := true, createRet := 0 }

example : pthreadCreate sampleExt false { app := some { size := some 100 } } =
    some (({ app := some { size := some 100 },
             log := [.get .app true, .set .app 200 true, .create .app (some { size := some 200 }),
               .set .app 100 true] } : World), 0) := by
  decide +kernel

/-- **C21** fails if the final setstacksize fails: its result is not looked at
(pthread.c:1156-1158), the object keeps the client's size. -/
theorem C21_restore_failure_violates :
    (pthreadCreate { sampleExt with restoreOk := false } false
      { app := some { size := some 100 } }).map (fun r => r.1.app) =
      some (some { size := some 200 }) := by
  decide +kernel

/-- **C21** fails over time for objects whose size was never set: restoring stores the current
default explicitly, so a later change of the default (pthread_setattr_default_np) no longer
applies to the object. -/
theorem C21_default_frozen :
    ∃ w r, pthreadCreate sampleExt false { app := some {} } = some (w, r) ∧
      w.app = some { size := some 8192 } ∧
      ∀ newDefault ≠ 8192, ∀ o, w.app = some o →
        o.stackSize newDefault ≠ ({} : Obj).stackSize newDefault := by
  refine ⟨_, _, rfl, by decide, ?_⟩
  intro n hn o ho
  have : o = { size := some 8192 } := by
    have h : (some o : Option Obj) = some { size := some 8192 } := ho.symm.trans (by decide)
    simpa using h
  subst this
  simp only [Obj.stackSize, Option.getD]
  exact fun h => hn h.symm

/-- **C21** fails when two threads use one attribute object at the same time, although POSIX
allows that: both calls return and the object is left with the client's size (the second call
read the size the first one had set, and restores that). -/
theorem C21_concurrent_violates :
    let s := sharedRun (fun n => 2 * n) [0, 0, 1, 0, 0, 1, 1, 1] { size := 100 }
    (∃ n, s.pc 0 = .done n) ∧ (∃ n, s.pc 1 = .done n) ∧ s.size = 200 ∧ s.seen 1 = some 400 := by
  refine ⟨⟨100, by decide +kernel⟩, ⟨200, by decide +kernel⟩, by decide +kernel,
    by decide +kernel⟩

/-- **C52.**  If the application supplied the stack memory and the client does not enlarge
the size, the thread's stack stays inside that memory. -/
theorem C52_user_stack_partial (x : Ext) (direct : Bool) (o : Obj) (a : Nat)
    (ht : o.top = some a) (hsz : o.stackSize x.sysDefault ≤ a) (hc : ∀ n, x.reset n ≤ n) :
    ∃ w r e lo hi, pthreadCreate x direct { app := some o } = some (w, r) ∧
      creates w.log = [e] ∧ stackRange x e = some (lo, hi) ∧
      (a : Int) - o.stackSize x.sysDefault ≤ lo ∧ lo ≤ hi ∧ hi = a := by
  have plain : ∀ w r p, pthreadCreate x direct { app := some o } = some (w, r) →
      creates w.log = [.create p (some o)] →
      ∃ w r e lo hi, pthreadCreate x direct { app := some o } = some (w, r) ∧
      creates w.log = [e] ∧ stackRange x e = some (lo, hi) ∧
      (a : Int) - o.stackSize x.sysDefault ≤ lo ∧ lo ≤ hi ∧ hi = a := by
    intro w r p h hl
    refine ⟨w, r, _, _, _, h, hl, by simp only [stackRange, ht, Option.map_some]; rfl, ?_, ?_, rfl⟩ <;>
      omega
  cases direct with
  | true => exact plain _ _ .app rfl (by simp [World.ev, creates, World.orig, World.get])
  | false =>
    obtain ⟨w, h1, h2⟩ := createNormal_cases x (some o)
    simp only at h2
    split at h2
    · exact plain w _ .app h1 (by rw [h2.2]; rfl)
    · split at h2
      · exact plain w _ .app h1 (by rw [h2.2]; rfl)
      · split at h2
        · exact plain w _ .app h1 (by rw [h2.2]; rfl)
        · refine ⟨w, _, _, _, _, h1, by rw [h2.2]; rfl,
            by simp only [stackRange, ht, Option.map_some]; rfl, ?_, ?_, rfl⟩
          · have := hc (o.stackSize x.sysDefault)
            simp only [Obj.stackSize, Option.getD_some] at this ⊢; omega
          · omega

/-- **C52** fails when the client enlarges the size, which is what the callback is for: the
application supplied `[900, 1000)`, the thread runs on `[800, 1000)`. -/
theorem C52_user_stack_violated :
    ∃ w r e, pthreadCreate sampleExt false { app := some { size := some 100, top := some 1000 } } =
        some (w, r) ∧ creates w.log = [e] ∧ stackRange sampleExt e = some (800, 1000) := by
  refine ⟨_, _, .create .app (some { size := some 200, top := some 1000 }), rfl,
    by decide +kernel, by decide +kernel⟩

end Libmonitor.Attr
