/-!
# What the printed text of a signal set should be (independent of `utils.c`)
-/

namespace Libmonitor.Utils.Spec

/-- `rs` lists the maximal runs of consecutive members of `{k | 1 ≤ k < n, mem k}` in
increasing order, as (first, last). -/
structure IsRuns (n : Nat) (mem : Nat → Bool) (rs : List (Nat × Nat)) : Prop where
  ordered : ∀ r ∈ rs, r.1 ≤ r.2
  /-- different runs are separated by at least one non-member, in increasing order -/
  gap : rs.Pairwise fun r s => r.2 + 1 < s.1
  cover : ∀ k, (∃ r ∈ rs, r.1 ≤ k ∧ k ≤ r.2) ↔ 1 ≤ k ∧ k < n ∧ mem k = true

/-- The text of a list of runs, e.g. `" 10, 12, 20-30"`. -/
def text (rs : List (Nat × Nat)) : String :=
  String.intercalate "," (rs.map fun r =>
    if r.1 = r.2 then " " ++ toString r.1 else " " ++ toString r.1 ++ "-" ++ toString r.2)

/-- Number of members of the set. -/
def card (n : Nat) (mem : Nat → Bool) : Nat :=
  ((List.range n).filter fun k => decide (1 ≤ k) && mem k).length

/-- `rs` cuts the list `l` into maximal ascending runs of consecutive numbers. -/
structure IsSegments (l : List Nat) (rs : List (Nat × Nat)) : Prop where
  ordered : ∀ r ∈ rs, r.1 ≤ r.2
  concat : rs.flatMap (fun r => List.range' r.1 (r.2 + 1 - r.1)) = l
  maximal : ∀ pre r s post, rs = pre ++ r :: s :: post → r.2 + 1 ≠ s.1

/-- The C string in a buffer: the characters before the first NUL. -/
def cstr (buf : List Char) : String := String.ofList (buf.takeWhile (· ≠ '\x00'))

end Libmonitor.Utils.Spec
