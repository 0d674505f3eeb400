import Verif.Once.Model

/-!
# What is claimed about one-time initialisation (C83)

Histories are latest first.
-/

namespace Libmonitor.Once

/-- How often the body of a guarded function has begun. -/
def runs (x : Guard) (tr : List Ev) : Nat := tr.countP fun e => match e with | .ran y _ => y == x | _ => false

/-- How often monitor_init_library was called. -/
def libs (tr : List Ev) : Nat := tr.countP fun e => match e with | .initLibrary _ => true | _ => false

/-- The user data of the process that was set last. -/
def lastData : List Ev → Data
  | [] => 0
  | .data _ d :: _ => d
  | _ :: r => lastData r

/-- A call that is behind monitor_early_init or monitor_normal_init: it has returned from it, or a callback
is called. -/
def Behind : Ev → Prop
  | .fin _ _ | .initLibrary _ | .initProcess _ _ | .data _ _ => True
  | .skip x _ => x ≠ .lib
  | _ => False

/-- Call `c` has found the flag clear and has not set it yet. -/
def Between (s : S) (x : Guard) (c : Call) : Prop := ∃ k, s.pc c = some (.set x, k)

/-- Call `c` is about to test the flag. -/
def Testing (s : S) (x : Guard) (c : Call) : Prop := ∃ k, s.pc c = some (.test x, k)

/-- Call `c` is in the middle of the function: it has found the flag clear, and has not finished it. -/
def Inside (s : S) (c : Call) : Guard → Prop
  | .early => ∃ p k, s.pc c = some (p, k) ∧ (p = .set .early ∨ p = .e1 ∨ p = .e2)
  | .normal => ∃ p k, s.pc c = some (p, k) ∧ (p = .set .normal ∨ p = .n2 ∨ .n2 ∈ k)
  | .lib => ∃ p k, s.pc c = some (p, k) ∧ (p = .set .lib ∨ p = .l2 ∨ p = .l3 ∨ .l2 ∈ k)

/-- Thread `t` is about to do a step of call `c`. -/
def Top (s : S) (t : Tid) (c : Call) : Prop := ∃ rest, s.th t = some c :: rest

/-- No call tests a flag while another is between testing and setting the same flag. -/
def NoRace (s : S) (l : Lbl) : Prop :=
  ∀ t v c x d, l = .go t v → Top s t c → Testing s x c → ¬ Between s x d

/-- Nobody calls monitor_early_init or monitor_normal_init, leaves it, or forks in another thread, while
a call is in the middle of it. -/
def Serial (s : S) (l : Lbl) : Prop :=
  ∀ x, x ≠ .lib →
    (∀ t v c d, l = .go t v → Top s t c → Testing s x c → ¬ Inside s d x) ∧
    (∀ t n d, l = .unwind t n → some d ∈ (s.th t).take n → ¬ Inside s d x) ∧
    (∀ t v d, l = .fork t v → some d ∉ s.th t → ¬ Inside s d x)

/-- One thread, no signal handlers; callbacks may do what they like. -/
def Calm (_ : S) (l : Lbl) : Prop :=
  match l with
  | .go t _ | .call t _ | .fork t _ | .unwind t _ => t = 0
  | .interrupt _ => False

/-- Until monitor_begin_library_fcn, with monitor_init_library in it, has finished for the first time there is
one thread and no signal handler; afterwards anything. -/
def LibraryFirst (s : S) (l : Lbl) : Prop := (∀ c, Ev.fin .lib c ∉ s.tr) → Calm s l

end Libmonitor.Once
