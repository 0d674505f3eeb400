/-!
# Model of `src/fork.c`

Strings are lists of characters (without the terminating NUL).  Arrays in memory are
lists of cells; reading or writing outside of an array is the outcome `ub`.  libc and
kernel calls (`mmap`, `malloc`, `access`, `fork`, `exec`, `waitpid`) are inputs.

Integer overflow of the `int` counters `n`, `argc`, `size` is not modelled (that would need
2^30 strings); `size_t` arithmetic in the page rounding is modelled modulo 2^64.
-/

namespace Libmonitor.Fork

abbrev Str := List Char

/-- Outcome of a C function: undefined behaviour, `MONITOR_ERROR` (message and exit 1,
common.h:108-113), or a normal return. -/
inductive Res (α : Type) where
  | ub
  | err
  | ret (a : α)
  deriving DecidableEq, Repr

def Res.bind {α β} : Res α → (α → Res β) → Res β
  | .ub, _ => .ub
  | .err, _ => .err
  | .ret a, f => f a

instance : Monad Res where
  pure := .ret
  bind := Res.bind

/-- Store into cell `i` of an array. -/
def store {α} (buf : List α) (i : Nat) (a : α) : Res (List α) :=
  if i < buf.length then .ret (buf.set i a) else .ub

/-! ## monitor_copy_environ (fork.c:153-199) -/

/-- `strstr(s, pat) != NULL`. -/
def contains (pat : Str) : Str → Bool
  | [] => pat.isPrefixOf []
  | c :: s => pat.isPrefixOf (c :: s) || contains pat s

/-- MONITOR_INIT_ENVIRON_SIZE (fork.c:79). -/
def initEnvironSize : Nat := 250

def word : Nat := 2 ^ 64

/-- Cell of a `char *` array: `none` is the NULL pointer. -/
abbrev Ptr := Option Str

/-- The counting loop (fork.c:161-163); running off the end of the array is `ub`. -/
def countEnv : List Ptr → Res Nat
  | [] => .ub
  | none :: _ => .ret 0
  | some _ :: rest => do
    let n ← countEnv rest
    .ret (n + 1)

/-- The page size used for rounding (fork.c:156, 168-172).  `sysconf` is the result of
sysconf(_SC_PAGESIZE), stored in a `size_t` before the comparison with 0. -/
def pageSize (sysconf : Int) : Nat :=
  let s := (sysconf % (2 ^ 64)).toNat
  if s > 0 then s else 4096

/-- Number of bytes asked from mmap for `n` pointers (fork.c:173-174). -/
def mapSize (n : Nat) (sysconf : Int) : Nat :=
  let size := (n * 8) % word
  ((size + pageSize sysconf - 1) % word / pageSize sysconf) * pageSize sysconf % word

/-- The array that receives the copy (fork.c:156, 167-185): the static array (with whatever
an earlier call left in it) or a fresh anonymous mapping.  mmap of length 0 fails. -/
def envBuffer (n : Nat) (sysconf : Int) (mmapOk : Bool) (static : List Ptr) : Res (List Ptr) :=
  if n > initEnvironSize then
    let size := mapSize n sysconf
    if size = 0 ∨ mmapOk = false then .err
    else .ret (List.replicate (size / 8) none)
  else .ret static

/-- "LD_PRELOAD" -/
def ldPreload : Str := "LD_PRELOAD".toList

/-- The copying loop (fork.c:188-195) with the final `newenv[n] = NULL`. -/
def copyEnv (newenv : List Ptr) (n : Nat) : List Ptr → Res (List Ptr)
  | [] => .ub
  | none :: _ => store newenv n none
  | some s :: rest =>
    if contains ldPreload s then copyEnv newenv n rest
    else do
      let newenv ← store newenv n (some s)
      copyEnv newenv (n + 1) rest

/-- `monitor_copy_environ` (fork.c:153-199). -/
def copyEnviron (oldenv : List Ptr) (sysconf : Int) (mmapOk : Bool) (static : List Ptr) :
    Res (List Ptr) := do
  let n ← countEnv oldenv
  let newenv ← envBuffer (n + 2) sysconf mmapOk static
  copyEnv newenv 0 oldenv

/-! ## monitor_copy_va_args (fork.c:211-241) -/

/-- MONITOR_INIT_ARGV_SIZE (fork.c:78). -/
def initArgvSize : Nat := 64

/-- The do-while loop (fork.c:223-236).  `args` is what `va_arg` has still to deliver (reading
past it is `ub`), `argv` the current array, `size` its size as the code believes,
`mallocs` the outcomes of the coming malloc calls.  New memory holds `junk`. -/
def vaLoop (junk : Ptr) (argv : List Ptr) (argc size : Nat) (mallocs : Nat → Bool) :
    List Ptr → Res (List Ptr × List Ptr)
  | [] => .ub
  | arg :: rest => do
    let (argv, size, mallocs) ←
      if argc ≥ size then
        let size := size * 2
        if mallocs 0 then
          -- memcpy of argc cells into a fresh array of `size` cells
          if argc ≤ argv.length ∧ argc ≤ size then
            .ret (argv.take argc ++ List.replicate (size - argc) junk, size, fun k => mallocs (k + 1))
          else .ub
        else .err
      else .ret (argv, size, mallocs)
    let argv ← store argv argc arg
    match arg with
    | none => .ret (argv, rest)
    | some _ => vaLoop junk argv (argc + 1) size mallocs rest

/-- `monitor_copy_va_args` (fork.c:211-241) with the caller's initial array of 64 cells
(fork.c:453, 467, 481).  `wantEnv` says whether an `envp` follows (execle).  Result: the
argv array and the envp. -/
def copyVaArgs (junk : Ptr) (first : Ptr) (args : List Ptr) (wantEnv : Bool)
    (mallocs : Nat → Bool) : Res (List Ptr × Option Ptr) := do
  let argv := List.replicate initArgvSize junk
  let argv ← store argv 0 first
  let (argv, rest) ← vaLoop junk argv 1 initArgvSize mallocs args
  if wantEnv then
    match rest with
    | [] => .ub
    | e :: _ => .ret (argv, some e)
  else .ret (argv, none)

/-! ## monitor_is_executable (fork.c:254-291) -/

/-- PATH_MAX. -/
def pathMax : Nat := 4096

/-- `path += strspn(path, ":")`. -/
def skipColons (p : Str) : Str := p.dropWhile (· == ':')

/-- The PATH loop (fork.c:271-288): `path` is the rest of PATH.  The four stores into
`buf[PATH_MAX]` are in bounds iff `path_len + file_len + 2 ≤ PATH_MAX`; the code only
logs the other case (fork.c:275-278). -/
def searchLoop (access : Str → Bool) (file : Str) (fuel : Nat) (path : Str) : Res Bool :=
  match fuel with
  | 0 => .ret false
  | fuel + 1 =>
    if path = [] then .ret false
    else
      let elem := path.takeWhile (· != ':')
      if elem.length + file.length + 2 > pathMax then .ub
      else if access (elem ++ '/' :: file) then .ret true
      else searchLoop access file fuel (skipColons (path.dropWhile (· != ':')))

/-- `monitor_is_executable`.  `path` is getenv("PATH").  The loop consumes at least one
character of PATH in each round, so its length is enough fuel (see
`searchLoop_fuel`). -/
def isExecutable (access : Str → Bool) (path : Option Str) (file : Option Str) : Res Bool :=
  match file with
  | none => .ret false
  | some file =>
    if '/' ∈ file then .ret (access file)
    else match path with
      | none => .ub          -- path += strspn(NULL, ":")
      | some path => searchLoop access file (path.length + 1) (skipColons path)

/-! ## The exec overrides (fork.c:355-513) -/

/-- Which real function is called at the end. -/
inductive Kind where
  | execv | execvp | execve
  deriving DecidableEq, Repr

/-- What happens around an exec: the exit callbacks (`monitor_end_process_fcn` with
MONITOR_EXIT_EXEC), the library callback (dynamic build only), the real call. -/
inductive Ev where
  | endProcess
  | endLibrary
  | real (k : Kind) (file : Option Str) (argv : List Ptr) (env : Option (List Ptr))
  deriving DecidableEq, Repr

/-- `monitor_execv` (fork.c:355-379), `monitor_execvp` (384-408), `monitor_execve` (413-437):
everything up to and including the real call. access(NULL) fails with EFAULT. -/
def execCall (dynamic : Bool) (access : Str → Bool) (path : Option Str) (k : Kind)
    (file : Option Str) (argv : List Ptr) (env : Option (List Ptr)) : Res (List Ev) := do
  let isExec ← match k with
    | .execvp => isExecutable access path file
    | _ => .ret (match file with | none => false | some f => access f)
  .ret ((if isExec then .endProcess :: (if dynamic then [.endLibrary] else []) else []) ++
    [.real k file argv env])

/-- `execl` (fork.c:450-461), `execlp` (463-474): argument copy, then the array form. -/
def execlCall (dynamic : Bool) (access : Str → Bool) (path : Option Str) (k : Kind)
    (file : Option Str) (junk first : Ptr) (args : List Ptr) (mallocs : Nat → Bool) :
    Res (List Ev) := do
  let (argv, _) ← copyVaArgs junk first args false mallocs
  execCall dynamic access path k file argv none

/-- `monitor_real_execve` (fork.c:633-647): `none` for a NULL argument; the result is either
the error return or the environment given to the real execve. -/
def realExecve (file : Option Str) (argv env : Option (List Ptr)) (sysconf : Int) (mmapOk : Bool)
    (static : List Ptr) : Res (Int ⊕ (Str × List Ptr × List Ptr)) :=
  match file, argv, env with
  | some f, some a, some e => do
    let e ← copyEnviron e sysconf mmapOk static
    .ret (.inr (f, a, e))
  | _, _, _ => .ret (.inl (-1))

end Libmonitor.Fork
