import Verif.SysC.Acts

/-!
# system() in several threads: C46, C77, C78

C46: after all calls have returned the actions of SIGINT and SIGQUIT are those of the application.
C77: the shell gets the application's actions and the mask of the calling thread.
C78: each call makes its callbacks and changes in order, restores what it has found, and the child
never comes back.
-/

namespace Libmonitor.SysC

/-! ## Concrete executions -/

def run (s : S) : List Lbl → Option S
  | [] => some s
  | l :: r => (next s l).bind fun s => run s r

/-- Every label of the execution is allowed. -/
def allowed (A : S → Lbl → Bool) (s : S) : List Lbl → Bool
  | [] => true
  | l :: r => A s l && match next s l with
    | some s => allowed A s r
    | none => false

/-- SIGINT has action 5, SIGQUIT has action 6, nothing is blocked. -/
def acts : Sg → Act
  | .int => 5
  | .quit => 6
def masks : Tid → Mask := fun _ _ => false
def start : S := { g := { act := acts, mask := masks } }

theorem reach_run {A : S → Lbl → Prop} {B : S → Lbl → Bool} (hB : ∀ s l, B s l = true → A s l) {s : S}
    (hs : ReachA A acts masks s) : ∀ {ls : List Lbl} {P : S → Bool},
    (allowed B s ls && (run s ls).any P) = true → ∃ s', ReachA A acts masks s' ∧ P s' = true := by
  intro ls
  induction ls generalizing s with
  | nil => intro P h; simp only [allowed, run, Bool.true_and, Option.any_some] at h; exact ⟨s, hs, h⟩
  | cons l r ih =>
    intro P h
    simp only [allowed, run, Bool.and_eq_true] at h
    cases hn : next s l with
    | none => rw [hn] at h; simp at h
    | some s' =>
      rw [hn] at h
      simp only [Option.bind_some] at h
      exact ih (.next hs (hB s l h.1.1) hn) (by simp [h.1.2, h.2])

/-- `n` steps of thread `t`, with 1 as the result of whatever it calls. -/
def go (t : Tid) (n : Nat) : List Lbl := List.replicate n (.go t 1)

/-- Thread `t` calls system() and waits for the shell; then it returns. -/
def enter (t : Tid) : List Lbl := .system t true :: go t 7
def leave (t : Tid) : List Lbl := go t 7

/-- The thread is in its outermost code. -/
def atRest (s : S) (t : Tid) : Bool :=
  match s.th t with
  | [.app] => true
  | _ => false

/-- The programs that were started: by which call, and with which actions. -/
def execs (s : S) : List (Nat × Act × Act) :=
  s.g.tr.filterMap fun x => match x.2 with
    | .exec c _ ai aq _ => some (c, ai, aq)
    | _ => none

/-- `Nested`, as a test. -/
def nestedB (s : S) : Lbl → Bool
  | .go t _ => match restoring s t with
    | some (sg, c) => match opened sg s.g.tr with
      | (c', _) :: _ => c' == c
      | [] => false
    | none => true
  | .appSet _ sg _ => (opened sg s.g.tr).isEmpty
  | _ => true

theorem nested_of {s : S} {l : Lbl} (h : nestedB s l = true) : Nested s l := by
  refine ⟨fun t v hl sg c hr => ?_, fun t sg a hl => ?_⟩
  · subst hl
    simp only [nestedB, hr] at h
    split at h
    · rename_i c' a r ho
      have : c' = c := by simpa using h
      subst this; exact ⟨a, r, ho⟩
    · cases h
  · subst hl
    simpa [nestedB] using h

/-- `Still`, as a test. -/
def stillB (s : S) : Lbl → Bool
  | .appSet t _ _ => (s.th t).all fun f => !f.inChild
  | .unwind t _ _ => (s.th t).all fun f => !f.inChild
  | _ => true

theorem still_of {s : S} {l : Lbl} (h : stillB s l = true) : Still s l := by
  cases l <;> simp only [Still] <;> simpa [stillB] using h

/-! ## C46 -/

/-- C46, all executions: nothing else than SIG_IGN or an action of the application is ever installed, also
if calls overlap, are cancelled, or the process forks. -/
theorem C46_known {a0 : Sg → Act} {m0 : Tid → Mask} {s : S} (hs : Reach a0 m0 s) (sg : Sg) :
    s.g.act sg = IGN ∨ WasSet a0 sg s.g.tr (s.g.act sg) := (known_inv hs sg).1

/-- C46: calls that are properly nested (in one thread by handlers and callbacks, or in several threads):
whenever no call has an action replaced, it is the one that the application has set last.  Calls that are
cancelled have it replaced for ever.

Missing: calls that overlap otherwise (`C46_overlap`), calls that are cancelled (`C46_cancelled`),
processes that are forked during a call of another thread (`C46_forked`), and actions that the
application sets meanwhile (`C46_set_meanwhile`). -/
theorem C46_restored_partial {a0 : Sg → Act} {m0 : Tid → Mask} {s : S} (hs : ReachA Nested a0 m0 s)
    (hb : notChild s.g.tr) (sg : Sg) (ho : opened sg s.g.tr = []) :
    s.g.act sg = lastSet a0 sg s.g.tr := by
  have := chain_inv hs sg hb
  rw [ho] at this; exact this

/-- The hypotheses are met: thread 1 calls system() while thread 0 is inside, and returns first; then the
application sets an action. -/
example : ∃ s, ReachA Nested acts masks s ∧ notChild s.g.tr ∧ opened .int s.g.tr = [] ∧
    s.g.act .int = 7 ∧ s.g.act .quit = 6 ∧ atRest s 0 = true ∧ s.g.nextC = 2 := by
  have := @reach_run Nested nestedB (fun _ _ => nested_of) start .init
    (enter 0 ++ enter 1 ++ leave 1 ++ leave 0 ++ [.appSet 0 .int 7])
    (fun s => s.g.tr.all (fun x => match x.2 with | .born _ => false | _ => true) &&
      decide (opened .int s.g.tr = [] ∧ s.g.act .int = 7 ∧ s.g.act .quit = 6 ∧ atRest s 0 = true ∧
        s.g.nextC = 2)) (by decide)
  obtain ⟨s, h1, h2⟩ := this
  simp only [Bool.and_eq_true, decide_eq_true_eq, List.all_eq_true] at h2
  exact ⟨s, h1, fun t c h => by simpa using h2.1 _ h, h2.2⟩

/-- C46 fails for calls that overlap: thread 0, which was first, returns first.  After both have returned
the two signals are ignored. -/
theorem C46_overlap : ∃ s, Reach acts masks s ∧
    decide (s.g.act .int = IGN ∧ s.g.act .quit = IGN ∧ atRest s 0 = true ∧ atRest s 1 = true ∧
      s.g.nextC = 2) = true :=
  reach_run (B := fun _ _ => true) (fun _ _ _ => trivial) .init
    (ls := enter 0 ++ enter 1 ++ leave 0 ++ leave 1) (by decide)

/-- C46 fails if a thread is cancelled in system(), in waitpid, with no other call: the signals stay
ignored.  (The libc's system() restores them.) -/
theorem C46_cancelled : ∃ s, ReachA Nested acts masks s ∧
    decide (s.g.act .int = IGN ∧ s.g.act .quit = IGN ∧ (s.th 0).isEmpty = true ∧ s.g.nextC = 1) = true :=
  reach_run (B := nestedB) (fun _ _ => nested_of) .init
    (ls := enter 0 ++ [.unwind 0 9 (fun _ => false)]) (by decide)

/-- C46 fails for a process made by fork while another thread is in system(): in the child, where no
thread is in system(), the signals are ignored. -/
theorem C46_forked : ∃ s, ReachA Nested acts masks s ∧
    decide (s.g.act .int = IGN ∧ (s.th 0).isEmpty = true ∧ atRest s 1 = true) = true :=
  reach_run (B := nestedB) (fun _ _ => nested_of) .init (ls := enter 0 ++ [.fork 1]) (by decide)

/-- C46 fails for an action that another thread sets meanwhile: it is lost. -/
theorem C46_set_meanwhile : ∃ s, Reach acts masks s ∧
    decide (s.g.act .int = 5 ∧ lastSet acts .int s.g.tr = 7 ∧ atRest s 0 = true ∧ atRest s 1 = true) = true :=
  reach_run (B := fun _ _ => true) (fun _ _ _ => trivial) .init
    (ls := enter 0 ++ [.appSet 1 .int 7] ++ leave 0) (by decide)

/-! ## C77 -/

/-- C77, the mask, in all executions: the shell is started with the mask that the thread had when it
called system(). -/
theorem C77_mask {a0 : Sg → Act} {m0 : Tid → Mask} {s : S} (hs : Reach a0 m0 s) {t : Tid} {c : Nat}
    {cb : Bool} {ai aq : Act} {m : Mask} (h : (t, Ev.exec c cb ai aq m) ∈ s.g.tr) :
    (t, Ev.blocked c m) ∈ s.g.tr := by
  induction hs with
  | init => simp at h
  | @next s s' l hs ha hn ih =>
    have hm := (move_of_next hn).2
    rcases exec_step hm h with h | ⟨k, rest, he, rfl, _, _, rfl⟩
    · exact tr_grows hm _ (ih h)
    · have h1 := mask_inv hs t
      rw [he] at h1
      have h2 := h1.1 k.om rfl
      simp only [Option.some.injEq] at h2
      rw [h2]
      exact tr_grows hm _ (found (inv_of hs) he).2.2

/-- C77, the actions: the shell is started with those that the call has found, also if handlers run in the
child.

Missing: handlers that set actions in the child, or leave it (`C78_escapes`). -/
theorem C77_found_partial {a0 : Sg → Act} {m0 : Tid → Mask} {s : S} (hs : ReachA Still a0 m0 s) {t : Tid}
    {c : Nat} {cb : Bool} {ai aq : Act} {m : Mask} (h : (t, Ev.exec c cb ai aq m) ∈ s.g.tr) :
    (t, Ev.save .int c ai) ∈ s.g.tr ∧ (t, Ev.save .quit c aq) ∈ s.g.tr := by
  induction hs with
  | init => simp at h
  | @next s s' l hs ha hn ih =>
    have hm := (move_of_next hn).2
    rcases exec_step hm h with h | ⟨k, rest, he, rfl, rfl, rfl, _⟩
    · exact ⟨tr_grows hm _ (ih h).1, tr_grows hm _ (ih h).2⟩
    · have hsolo := solo_inv (fun _ _ h => h) hs
      have h1 := hsolo.acts t .int
      have h2 := hsolo.acts t .quit
      rw [he] at h1 h2
      rw [h1.1 .exc k rfl k.oi rfl, h2.1 .exc k rfl k.oq rfl]
      have := found (inv_of hs) he
      exact ⟨tr_grows hm _ this.1, tr_grows hm _ this.2.1⟩

/-- C77: and these are the application's, if no other call had the action replaced at the time.

Missing: other calls in progress, also properly nested ones (`C77_second`). -/
theorem C77_application_partial {a0 : Sg → Act} {m0 : Tid → Mask} {s : S} (hs : ReachA Nested a0 m0 s)
    {sg : Sg} {p q : Hist} {t : Tid} {c : Nat} {a : Act} (htr : s.g.tr = p ++ (t, .save sg c a) :: q)
    (hb : notChild q) (ho : opened sg q = []) : a = lastSet a0 sg q := first_inv hs htr hb ho

/-- A handler runs in the child, calls system() itself, whose shell ends, and returns. -/
def childRun : List Lbl :=
  .appSet 0 .int 8 :: enter 0 |>.dropLast |>.append ([.child 0, .go 0 1, .go 0 1, .interrupt 0 (fun _ => true),
    .system 0 true] ++ go 0 17 ++ [.go 0 1, .go 0 0])

/-- The shell gets the application's actions. -/
example : ∃ s, (ReachA Still acts masks s ∧ ReachA Nested acts masks s) ∧
    execs s = [(0, 8, 6)] ∧ s.g.nextC = 2 := by
  have := @reach_run (fun s l => Still s l ∧ Nested s l) (fun s l => stillB s l && nestedB s l)
    (fun _ _ h => by
      simp only [Bool.and_eq_true] at h
      exact ⟨still_of h.1, nested_of h.2⟩) start .init childRun
    (fun s => decide (execs s = [(0, 8, 6)] ∧ s.g.nextC = 2)) (by decide)
  obtain ⟨s, h1, h2⟩ := this
  exact ⟨s, ⟨weaken (fun _ _ h => h.1) h1, weaken (fun _ _ h => h.2) h1⟩, by simpa using h2⟩

/-- C77 fails for a second call, although the calls are properly nested: the shell of thread 1 is started
with SIGINT and SIGQUIT ignored. -/
theorem C77_second : ∃ s, (ReachA (fun s l => Still s l ∧ Nested s l) acts masks s) ∧
    decide (execs s = [(1, IGN, IGN)] ∧ lastSet acts .int s.g.tr = 5) = true :=
  reach_run (B := fun s l => stillB s l && nestedB s l)
    (fun _ _ h => by
      simp only [Bool.and_eq_true] at h
      exact ⟨still_of h.1, nested_of h.2⟩) .init
    (ls := enter 0 ++ .system 1 true :: go 1 6 ++ .child 1 :: go 1 3 ++ [.go 1 0]) (by decide)

/-! ## C78 -/

/-- C78: every call of system() in every execution follows one of the three scripts, in one thread, as far
as it goes: pre-fork, the changes, fork, in the parent the wait, what was found is restored, post-fork
with the result of fork and the value from pre-fork, the status that waitpid gave or −1 if fork failed;
in the child what was found is restored, then the shell.  Nothing is done twice. -/
theorem C78_script {a0 : Sg → Act} {m0 : Tid → Mask} {s : S} (hs : Reach a0 m0 s) (c : Nat) :
    ∃ t sc, Script c sc ∧ ofCall c s.g.tr <+: sc.map (t, ·) := (inv_of hs).scripted c

/-- C78: a call that has returned has done all of its script. -/
theorem C78_complete {a0 : Sg → Act} {m0 : Tid → Mask} {s : S} (hs : Reach a0 m0 s) {t : Tid} {c : Nat}
    {st : Int} (h : (t, Ev.ret c st) ∈ s.g.tr) :
    ∃ sc, Script c sc ∧ ofCall c s.g.tr = sc.map (t, ·) ∧ ∀ u, (u, Ev.born c) ∉ s.g.tr := by
  obtain ⟨u, sc, hsc, hpre⟩ := C78_script hs c
  have hm := mem_ofCall (c := c) h rfl
  have hm' := hpre.subset hm
  simp only [List.mem_map, Prod.mk.injEq] at hm'
  obtain ⟨e, he, rfl, rfl⟩ := hm'
  -- `ret` comes last
  have key : ∀ (sc' : List Ev) (st' : Int), (∀ e ∈ sc', ∀ x, e ≠ .ret c x) → (∀ e ∈ sc', e ≠ .born c) →
      sc = sc' ++ [.ret c st'] → ∃ sc, Script c sc ∧ ofCall c s.g.tr = sc.map (u, ·) ∧
        ∀ w, (w, Ev.born c) ∉ s.g.tr := by
    intro sc' st' hn hnb hsc'
    refine ⟨sc, hsc, ?_, fun w hb => ?_⟩
    · obtain ⟨r, hr⟩ := hpre
      rcases List.eq_nil_or_concat r with rfl | ⟨r', x, rfl⟩
      · simpa using hr
      · exfalso
        rw [hsc', List.map_append, List.concat_eq_append, ← List.append_assoc] at hr
        have := List.append_inj_left' hr (by simp)
        have hin : (u, Ev.ret c st) ∈ sc'.map (u, ·) := by
          rw [← this]; exact List.mem_append_left _ hm
        simp only [List.mem_map, Prod.mk.injEq, true_and] at hin
        obtain ⟨e, he, h'⟩ := hin
        exact hn e he st h'
    · have := hpre.subset (mem_ofCall (c := c) hb rfl)
      rw [hsc'] at this
      simp only [List.mem_map, Prod.mk.injEq] at this
      obtain ⟨e, he', _, rfl⟩ := this
      rcases List.mem_append.mp he' with h' | h'
      · exact hnb _ h' rfl
      · simp at h'
  cases hsc with
  | parent cb d oi oq om pid st' hp =>
    refine key _ st' (fun e he x => ?_) (fun e he => ?_) rfl <;>
    · intro h'; subst h'
      cases cb <;> simp [opening, closing, ifCb] at he
  | failed cb d oi oq om pid hp =>
    refine key _ (-1) (fun e he x => ?_) (fun e he => ?_) rfl <;>
    · intro h'; subst h'
      cases cb <;> simp [opening, closing, ifCb] at he
  | child cb d oi oq om ai aq am =>
    exfalso
    cases cb <;> simp [opening, closing, ifCb] at he

/-- C78: while the thread waits for the shell, SIGCHLD is blocked in it. -/
theorem C78_blocked {a0 : Sg → Act} {m0 : Tid → Mask} {s : S} (hs : Reach a0 m0 s) {t : Tid} {k : K}
    {rest : List Frame} (hw : s.th t = .sys .wait k :: rest) : s.g.mask t SIGCHLD = true := by
  have h := mask_inv hs t
  rw [hw] at h
  have := h.1 (addChld k.om) rfl
  simp only [Option.some.injEq] at this
  rw [this]; simp [addChld]

/-- C78: the mask is really restored: until the post-fork callback is called, or system() returns without
one, the thread has the mask that it had when it called system(). -/
theorem C78_mask {a0 : Sg → Act} {m0 : Tid → Mask} {s : S} (hs : Reach a0 m0 s) {t : Tid} {p : Pc} {k : K}
    {rest : List Frame} (hw : s.th t = .sys p k :: rest) (hp : p = .post ∨ p = .out ∧ k.cb = false) :
    (t, Ev.blocked k.c (s.g.mask t)) ∈ s.g.tr := by
  have h := mask_inv hs t
  rw [hw] at h
  have hm : s.g.mask t = k.om := by
    have := h.1 k.om (by rcases hp with rfl | ⟨rfl, h⟩ <;> simp [want, *])
    simpa using this
  rw [hm]
  have ht := ((inv_of hs).told t p k (by simp [hw])).2
  refine of_mem_ofCall (c := k.c) ?_
  rcases hp with rfl | ⟨rfl, _⟩ <;> simp only [reduceCtorEq, if_false] at ht <;> rw [ht] <;>
    simp [path, opening]

/-- A thread with a mask of its own is in the post-fork callback's place. -/
example : ∃ s, Reach acts masks s ∧ decide (s.g.mask 0 3 = true ∧ s.g.mask 0 SIGCHLD = false) = true ∧
    ∃ k rest, s.th 0 = .sys .post k :: rest := by
  obtain ⟨s, hs, h⟩ := reach_run (B := fun _ _ => true) (fun _ _ _ => trivial) (.init (A := fun _ _ => True))
    (ls := [.appMask 0 fun n => n == 3] ++ enter 0 ++ go 0 4)
    (P := fun s => decide (s.g.mask 0 3 = true ∧ s.g.mask 0 SIGCHLD = false) &&
      match s.th 0 with | .sys .post _ :: _ => true | _ => false) (by decide)
  simp only [Bool.and_eq_true] at h
  refine ⟨s, hs, h.1, ?_⟩
  have h2 := h.2
  split at h2
  · rename_i k rest he; exact ⟨k, rest, he⟩
  · simp at h2

/-- C78: the child never comes back: it has no other thread, and it is inside system() until it has
become another program or has ended.

Missing: handlers that leave the child's code (`C78_escapes`). -/
theorem C78_child_partial {a0 : Sg → Act} {m0 : Tid → Mask} {s : S} (hs : ReachA Still a0 m0 s) {t : Tid}
    {c : Nat} (h : (t, Ev.born c) ∈ s.g.tr) : s.g.dead = true ∨
      ((∀ u, u ≠ t → s.th u = []) ∧ ∃ p k, .sys p k ∈ s.th t ∧ k.c = c ∧ (Frame.sys p k).inChild = true) := by
  rcases born_inv (fun _ _ h => h) hs h with h | ⟨f, hf, h1, h2⟩
  · exact .inl h
  · right
    refine ⟨(solo_inv (fun _ _ h => h) hs).alone t ⟨f, hf, h1⟩, ?_⟩
    cases f with
    | app => simp [Frame.inChild] at h1
    | sigret m => simp [Frame.inChild] at h1
    | sys p k => exact ⟨p, k, hf, by simpa [Frame.id] using h2, h1⟩

/-- C78 fails if a handler runs in the child after the actions have been restored, and leaves by longjmp:
the application then runs in two processes. -/
theorem C78_escapes : ∃ s, Reach acts masks s ∧
    (atRest s 0 && !s.g.dead && s.g.tr.any fun x => match x.2 with | .born _ => true | _ => false) = true :=
  reach_run (B := fun _ _ => true) (fun _ _ _ => trivial) .init
    (ls := (.system 0 true :: go 0 6) ++ [.child 0, .go 0 1, .interrupt 0 (fun _ => false),
      .unwind 0 3 (fun _ => false)]) (by decide)

/-- A complete call, and one whose fork fails. -/
example : ∃ s, Reach acts masks s ∧ decide ((ofCall 0 s.g.tr).length = 13 ∧ (ofCall 1 s.g.tr).length = 12 ∧
    atRest s 0 = true) = true :=
  reach_run (B := fun _ _ => true) (fun _ _ _ => trivial) .init
    (ls := enter 0 ++ leave 0 ++ (.system 0 true :: go 0 6) ++ [.go 0 (-1)] ++ go 0 6) (by decide)

end Libmonitor.SysC
