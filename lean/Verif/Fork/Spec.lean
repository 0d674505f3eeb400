import Verif.Fork.System

/-!
# Specifications for fork.c, independent of the model's loops
-/

namespace Libmonitor.Fork.Spec

/-- `pat` occurs in `s`. -/
def Occurs (pat s : Str) : Prop := ∃ a b, s = a ++ pat ++ b

/-- The environment entry defines the variable `name`. -/
def Defines (name s : Str) : Prop := ∃ v, s = name ++ '=' :: v

/-- The memory holds the NULL terminated array `l`. -/
def Holds (arr : List Ptr) (l : List Str) : Prop :=
  ∃ tail, arr = l.map some ++ none :: tail

/-- The elements of PATH: the text between colons. -/
def split : Str → List Str
  | [] => [[]]
  | c :: s =>
    if c = ':' then [] :: split s
    else match split s with
      | [] => [[c]]
      | e :: es => (c :: e) :: es

/-- What a path name refers to. -/
inductive Node where
  | missing
  | dir
  | file (x : Bool)
  deriving DecidableEq, Repr

/-- access(path, X_OK) == 0 on a file system (directories are searchable). -/
def access (fs : Str → Node) (p : Str) : Bool :=
  match fs p with
  | .missing => false
  | .dir => true
  | .file x => x

/-- exec can run this. -/
def runnable (fs : Str → Node) (p : Str) : Bool :=
  match fs p with
  | .file true => true
  | _ => false

/-- The name execvp tries for one PATH element; an empty element is the current directory. -/
def candidate (file elem : Str) : Str := if elem = [] then file else elem ++ '/' :: file

/-- execvp finds something to run: the name itself if it has a slash, otherwise any
candidate on PATH; the empty name is never found.  With PATH unset a default is used. -/
def execvpRuns (fs : Str → Node) (defaultPath : Str) (path : Option Str) (file : Str) : Bool :=
  if file = [] then false
  else if '/' ∈ file then runnable fs file
  else (split (path.getD defaultPath)).any fun e => runnable fs (candidate file e)

end Libmonitor.Fork.Spec
