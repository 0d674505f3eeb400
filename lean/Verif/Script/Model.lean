/-!
# monitor-run.in and monitor-link.in

A word is a list of characters.  The positional parameters are a list of words; `$1` of an empty
list expands to the empty word.
-/

namespace Libmonitor.Script

abbrev Word := List Char

/-- A string literal as a word. -/
def lit (s : String) : Word := s.toList

/-- Splitting at separators, dropping empty pieces: field splitting of the shell on IFS white
space, and the way the dynamic linker splits LD_PRELOAD. -/
def fieldsAux (sep : Char → Bool) (cur : Word) : Word → List Word
  | [] => if cur = [] then [] else [cur]
  | c :: cs =>
    if sep c then (if cur = [] then [] else [cur]) ++ fieldsAux sep [] cs
    else fieldsAux sep (cur ++ [c]) cs

def fields (sep : Char → Bool) (w : Word) : List Word := fieldsAux sep [] w

/-- The dynamic linker separates LD_PRELOAD at colons and spaces (ld.so(8)). -/
def ldSep (c : Char) : Bool := c == ':' || c == ' '

/-- Default IFS. -/
def ifs (c : Char) : Bool := c == ' ' || c == '\t' || c == '\n'

/-- The shell pattern `-*`. -/
def isDash : Word → Bool
  | c :: _ => c == '-'
  | [] => false

/-! ### monitor-run.in -/

/-- What the script depends on: the current directory, which files exist, the
installed library, and LD_PRELOAD at the start (unset is the same as empty). -/
structure RunEnv where
  pwd : Word
  isFile : Word → Bool
  libmonitor : Word
  ldPreload : Word

inductive RunRes where
  | usage
  | die
  | exec (argv : List Word) (ldPreload : Word) (debug : Bool)
  deriving DecidableEq, Repr

/-- monitor-run.in:97-106, with `$@` = args. -/
def runFinish (e : RunEnv) (pre : Word) (dbg : Bool) (args : List Word) : RunRes :=
  match args with
  | [] => .usage
  | w :: _ =>
    if w = [] then .usage
    else if e.isFile e.libmonitor then
      .exec args (pre ++ ':' :: e.libmonitor ++ ':' :: e.ldPreload) dbg
    else .die

/-- monitor-run.in:73-76. -/
def absFile (e : RunEnv) (f : Word) : Word :=
  match f with
  | '/' :: _ => f
  | _ => e.pwd ++ '/' :: f

/-- The option loop, monitor-run.in:57-95.  `pre` is `preload_files`. -/
def runParse (e : RunEnv) (pre : Word) (dbg : Bool) : List Word → RunRes
  | [] => runFinish e pre dbg []
  | w :: ws =>
    if w = [] then runFinish e pre dbg (w :: ws)
    else if w = lit "-d" ∨ w = lit "--debug" then runParse e pre true ws
    else if w = lit "-h" ∨ w = lit "--help" then .usage
    else if w = lit "-i" ∨ w = lit "--insert" then
      match ws with
      | [] => .die
      | f :: ws' =>
        if f = [] then .die
        else if e.isFile (absFile e f) then runParse e (pre ++ ':' :: absFile e f) dbg ws'
        else .die
    else if w = lit "--" then runFinish e pre dbg ws
    else if isDash w then .die
    else runFinish e pre dbg (w :: ws)

/-- The script, monitor-run.in:24-106. -/
def monitorRun (e : RunEnv) (args : List Word) : RunRes := runParse e [] false args

/-! ### monitor-link.in -/

/-- What the script depends on: the installed library, the configured list of names to
wrap, and pathname expansion (`glob` gives the words a pattern expands to). -/
structure LinkEnv where
  libmonitor : Word
  wrapList : Word
  glob : Word → List Word

/-- Unquoted expansion: field splitting, then pathname expansion of each field. -/
def LinkEnv.expand (e : LinkEnv) (w : Word) : List Word := (fields ifs w).flatMap e.glob

structure LinkOpts where
  inserts : Word := []
  wraps : Word := []
  undefs : Word := []

inductive LinkRes where
  | usage
  | die
  | exec (argv : List Word)
  deriving DecidableEq, Repr

/-- The pattern `-l?*`, monitor-link.in:133. -/
def isLib : Word → Bool
  | '-' :: 'l' :: _ :: _ => true
  | _ => false

/-- `for x in ..; do acc="${acc} <prefix>x"`, monitor-link.in:129-147. -/
def accum (pfx : Word) (l : List Word) : Word := l.flatMap (fun x => ' ' :: (pfx ++ x))

/-- monitor-link.in:119-154, with `$@` = args. -/
def linkFinish (e : LinkEnv) (o : LinkOpts) (args : List Word) : LinkRes :=
  match args with
  | command :: a :: rest =>
    if a = [] then .usage
    else
      let args := a :: rest
      let applLibs := accum [] (args.filter isLib)
      let wrapArgs := accum (lit "-Wl,--wrap=") (e.expand e.wrapList ++ e.expand o.wraps)
      let undefArgs := accum (lit "-Wl,--undefined=__wrap_") (e.expand o.undefs)
      let monArgs := o.inserts ++ ' ' :: e.libmonitor ++ ' ' :: applLibs ++ ' ' :: []
      .exec (e.expand command ++ e.expand wrapArgs ++ e.expand undefArgs ++ args ++
        e.expand monArgs)
  | _ => .usage

/-- The option loop, monitor-link.in:73-117. -/
def linkParse (e : LinkEnv) (o : LinkOpts) : List Word → LinkRes
  | [] => linkFinish e o []
  | w :: ws =>
    if w = [] then linkFinish e o (w :: ws)
    else if w = lit "-h" ∨ w = lit "--help" then .usage
    else if w = lit "-i" ∨ w = lit "--insert" then
      match ws with
      | [] => .die
      | f :: ws' =>
        if f = [] then .die else linkParse e { o with inserts := o.inserts ++ ' ' :: f } ws'
    else if w = lit "-u" ∨ w = lit "--undefined" then
      match ws with
      | [] => .die
      | f :: ws' =>
        if f = [] then .die else linkParse e { o with undefs := o.undefs ++ ' ' :: f } ws'
    else if w = lit "-v" ∨ w = lit "--verbose" then linkParse e o ws
    else if w = lit "-w" ∨ w = lit "--wrap" then
      match ws with
      | [] => .die
      | f :: ws' =>
        if f = [] then .die else linkParse e { o with wraps := o.wraps ++ ' ' :: f } ws'
    else if w = lit "--" then linkFinish e o ws
    else if isDash w then .die
    else linkFinish e o (w :: ws)

/-- The script, monitor-link.in:27-154. -/
def monitorLink (e : LinkEnv) (args : List Word) : LinkRes := linkParse e {} args

end Libmonitor.Script
