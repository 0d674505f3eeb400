import Verif.Proc.SpecLife
/-!
# Vocabulary of the statements about monitor_broadcast_signal
-/

namespace Libmonitor.Proc

/-- The call of monitor_broadcast_signal that thread `t` is in (or, with `d` calls closed, the
one around them): the targets of the signals it has sent, latest first, and the history before the
call. -/
def callOf (t : Tid) : Nat → Hist → Option (List (Option Tid) × Hist)
  | _, [] => none
  | d, (u, e) :: old =>
    if u = t then
      match e, d with
      | .brRet .., d => callOf t (d + 1) old
      | .brCall _, 0 => some ([], old)
      | .brCall _, d + 1 => callOf t d old
      | .kill tgt (some _), 0 => (callOf t 0 old).map (fun x => (tgt :: x.1, x.2))
      | _, d => callOf t d old
    else callOf t d old

/-- A created thread that is registered, has entered its start routine and not its fini-thread
callback: registered and started in `b`, not finished in `tr`. -/
def runsIn (u : Tid) (b tr : Hist) : Prop :=
  (∃ k, (u, .linked k) ∈ b) ∧ (∃ st ar, (u, .start st ar) ∈ b) ∧
    ∀ k d src, (u, .finiThread k d src) ∉ tr

/-- What the end of a call of monitor_broadcast_signal by thread `t` says about the signals it has
sent.  It fails only at once.  Else, if the call was begun in this process (always so if the process
was not made by fork): every other created thread that ran all the time got one signal; no created
thread got two; the initial thread got one if it is not the caller (two are possible if exit
cleanup has begun); no signal was sent to the caller or to a thread unknown to the library. -/
def brSpec (old : Hist) (t : Tid) : Ev → Prop
  | .brRet sig false => ∃ b, old = (t, .brCall sig) :: b
  | .brRet _ true =>
    (startedBy old = none → ∃ l b, callOf t 0 (own old) = some (l, b)) ∧
    ∀ l b, callOf t 0 (own old) = some (l, b) →
      (∀ u, u ≠ t → u ≠ mainOf old → runsIn u b old → l.count (some u) = 1) ∧
      (∀ u, u ≠ mainOf old → l.count (some u) ≤ 1) ∧
      (t ≠ mainOf old → 1 ≤ l.count (some (mainOf old))) ∧
      ((∀ w, (w, .shootdown) ∉ old) → l.count (some (mainOf old)) ≤ 1) ∧
      ∀ x ∈ l, ∃ u, x = some u ∧ u ≠ t ∧ (u = mainOf old ∨ ∃ k, (u, .linked k) ∈ old)
  | _ => True

/-- Steps a call of monitor_broadcast_signal has still to make, for a list of `n` threads. -/
def brLeft (n : Nat) : Frame → Nat
  | .br0 _ => 2 * n + 3
  | .br1 _ todo => 2 * todo.length + 2
  | .brKill _ _ todo => 2 * todo.length + 3
  | .br2 _ => 1
  | _ => 0

end Libmonitor.Proc
