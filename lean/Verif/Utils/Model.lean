/-!
# Model of `src/utils.c`

A character buffer is the list of its bytes; its length is the number of bytes the
caller owns.  A write outside the buffer is undefined behaviour in C and is the
separate outcome `Out.ub` here.
-/

namespace Libmonitor.Utils

/-- A digit character (`sprintf` `%d`). -/
def digit (n : Nat) : Char := Char.ofNat (48 + n)

/-- `%d` of a non-negative `int`: decimal text without leading zeros.
The code only prints numbers `> 0` (utils.c:77, 83, 139). -/
def dec (n : Nat) : List Char :=
  if _h : n < 10 then [digit n] else dec (n / 10) ++ [digit (n % 10)]
termination_by n
decreasing_by omega

/-- The terminating NUL byte. -/
def nul : Char := Char.ofNat 0

/-- `sprintf(&buf[pos], s)`: writes the characters of `s` and a NUL byte from index
`pos` on; `none` when that would leave the buffer. -/
def put (buf : List Char) (pos : Nat) (s : List Char) : Option (List Char) :=
  if pos + s.length + 1 ≤ buf.length then
    some (buf.take pos ++ (s ++ [nul]) ++ buf.drop (pos + s.length + 1))
  else none

/-- `buf[i] = 0`; `none` when `i` is outside the buffer. -/
def zero (buf : List Char) (i : Nat) : Option (List Char) :=
  if i < buf.length then some (buf.set i nul) else none

/-- Outcome of a call: undefined behaviour, or the final buffer and the returned `int`. -/
inductive Out where
  | ub
  | ret (buf : List Char) (r : Int)
  deriving DecidableEq, Repr

/-- `SIG_ITEM_SIZE` (utils.c:50). -/
def itemSize : Nat := 15

/-- The text of one item, ` %d-%d,` or ` %d,` (utils.c:83-88 and 139-144). -/
def itemText (first last : Nat) : List Char :=
  if last > first then ' ' :: dec first ++ '-' :: dec last ++ [',']
  else ' ' :: dec last ++ [',']

/-- What `num_sigs` grows by for one item (utils.c:84, 87 and 140, 143). -/
def itemCount (first last : Nat) : Nat :=
  if last > first then last - first + 1 else 1

/-- `" and more"` (utils.c:75, 131). -/
def more : List Char := " and more".toList

/-- `" (null)"` (utils.c:64, 119). -/
def nullText : List Char := " (null)".toList

/-- The inner `while` of `monitor_sigset_string` (utils.c:80-82): the last signal of
the run starting at `sig`.  `mem` is `sigismember(set, ·) == 1`, `n` is `MONITOR_NSIG`. -/
def runEnd (n : Nat) (mem : Nat → Bool) (sig : Nat) : Nat :=
  if sig + 1 < n ∧ mem (sig + 1) then runEnd n mem (sig + 1) else sig
termination_by n - sig

theorem le_runEnd (n : Nat) (mem : Nat → Bool) (sig : Nat) : sig ≤ runEnd n mem sig := by
  induction sig using runEnd.induct n mem with
  | case1 sig h ih => rw [runEnd, if_pos h]; omega
  | case2 sig h => rw [runEnd, if_neg h]; omega

/-- The `for` loop of `monitor_sigset_string` and the lines after it (utils.c:71-94).
`size` is already known to be at least `SIG_ITEM_SIZE`, hence a `Nat`. -/
def sigsetLoop (n : Nat) (mem : Nat → Bool) (size : Nat)
    (buf : List Char) (pos prev num sig : Nat) : Out :=
  if _h : sig < n then
    if mem sig then
      if pos + itemSize > size then
        match put buf prev more with
        | none => .ub
        | some b => .ret b (-1)
      else
        let last := runEnd n mem sig
        match put buf pos (itemText sig last) with
        | none => .ub
        | some b =>
          sigsetLoop n mem size b (pos + (itemText sig last).length) pos
            (num + itemCount sig last) (last + 1)
    else sigsetLoop n mem size buf pos prev num (sig + 1)
  else
    match zero buf (if pos > 0 then pos - 1 else 0) with
    | none => .ub
    | some b => .ret b num
termination_by n - sig
decreasing_by
  · have := le_runEnd n mem sig; omega
  · omega

/-- `monitor_sigset_string` (utils.c:51-95) for a non-NULL `buf` (`buf == NULL` just
returns -1).  `n` is `MONITOR_NSIG`; `set` is `none` for a NULL set. -/
def sigsetString (n : Nat) (buf : List Char) (size : Int) (set : Option (Nat → Bool)) : Out :=
  match zero buf 0 with                       -- utils.c:59
  | none => .ub
  | some buf =>
    if size < itemSize then .ret buf (-1)     -- utils.c:60-62
    else match set with
      | none =>                               -- utils.c:63-66
        match put buf 0 nullText with
        | none => .ub
        | some b => .ret b 0
      | some mem => sigsetLoop n mem size.toNat buf 0 0 0 1

/-- The inner `while` of `monitor_signal_list_string` (utils.c:135-138) on the rest of
the list after the current element; returns the last signal of the run and the
remaining list.  `none` when the read leaves the array (no terminator) or `sig + 1`
overflows `int` (`big` is `INT_MAX`). -/
def listRun (big : Int) (sig : Int) : List Int → Option (Int × List Int)
  | [] => none
  | y :: rest =>
    if sig = big then none
    else if y = sig + 1 then listRun big y rest else some (sig, y :: rest)

theorem listRun_length {big sig : Int} {l : List Int} {e : Int} {r : List Int}
    (h : listRun big sig l = some (e, r)) : r.length ≤ l.length := by
  induction l generalizing sig with
  | nil => simp [listRun] at h
  | cons y rest ih =>
    simp only [listRun] at h
    split at h
    · simp at h
    · split at h
      · have := ih h; simp; omega
      · simp only [Option.some.injEq, Prod.mk.injEq] at h
        rw [← h.2]; omega

/-- The `for` loop of `monitor_signal_list_string` and the lines after it
(utils.c:126-147).  The list argument is what is left of the array. -/
def listLoop (big : Int) (size : Nat) (buf : List Char) (pos prev num : Nat)
    (l : List Int) : Out :=
  match l with
  | [] => .ub
  | sig :: rest =>
    if sig > 0 then
      if pos + itemSize > size then
        match put buf prev more with
        | none => .ub
        | some b => .ret b (-1)
      else
        match h : listRun big sig rest with
        | none => .ub
        | some (last, rest') =>
          have := listRun_length h
          match put buf pos (itemText sig.toNat last.toNat) with
          | none => .ub
          | some b =>
            listLoop big size b (pos + (itemText sig.toNat last.toNat).length) pos
              (num + itemCount sig.toNat last.toNat) rest'
    else
      match zero buf (if pos > 0 then pos - 1 else 0) with
      | none => .ub
      | some b => .ret b num
termination_by l.length
decreasing_by simp; omega

/-- `monitor_signal_list_string` (utils.c:104-148) for a non-NULL `buf`.  `list` is the
array as far as the caller owns it (normally ending in -1), `none` for NULL. -/
def signalListString (big : Int) (buf : List Char) (size : Int) (list : Option (List Int)) : Out :=
  match zero buf 0 with
  | none => .ub
  | some buf =>
    if size < itemSize then .ret buf (-1)
    else match list with
      | none =>
        match put buf 0 nullText with
        | none => .ub
        | some b => .ret b 0
      | some l => listLoop big size.toNat buf 0 0 0 l

end Libmonitor.Utils
