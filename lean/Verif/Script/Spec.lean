import Verif.Script.Model

/-!
# Command lines of the two scripts, as the usage messages describe them
-/

namespace Libmonitor.Script.Spec

/-- Options of monitor-run; `long` selects the spelling. -/
inductive RunOpt where
  | debug (long : Bool)
  | insert (long : Bool) (file : Word)

def RunOpt.words : RunOpt → List Word
  | .debug false => [lit "-d"]
  | .debug true => [lit "--debug"]
  | .insert false f => [lit "-i", f]
  | .insert true f => [lit "--insert", f]

/-- The client libraries in command-line order. -/
def runFiles (opts : List RunOpt) : List Word :=
  opts.filterMap (fun o => match o with | .insert _ f => some f | .debug _ => none)

/-- Does some option ask for debugging. -/
def runDebug (opts : List RunOpt) : Bool := opts.any (fun o => o matches .debug _)

/-- Options of monitor-link. -/
inductive LinkOpt where
  | insert (long : Bool) (file : Word)
  | undef (long : Bool) (sym : Word)
  | wrap (long : Bool) (sym : Word)
  | verbose (long : Bool)

def LinkOpt.words : LinkOpt → List Word
  | .insert false f => [lit "-i", f]
  | .insert true f => [lit "--insert", f]
  | .undef false f => [lit "-u", f]
  | .undef true f => [lit "--undefined", f]
  | .wrap false f => [lit "-w", f]
  | .wrap true f => [lit "--wrap", f]
  | .verbose false => [lit "-v"]
  | .verbose true => [lit "--verbose"]

def linkInserts (opts : List LinkOpt) : List Word :=
  opts.filterMap (fun o => match o with | .insert _ f => some f | _ => none)
def linkUndefs (opts : List LinkOpt) : List Word :=
  opts.filterMap (fun o => match o with | .undef _ f => some f | _ => none)
def linkWraps (opts : List LinkOpt) : List Word :=
  opts.filterMap (fun o => match o with | .wrap _ f => some f | _ => none)

/-- The optional end-of-options marker. -/
def marker : Bool → List Word
  | true => [lit "--"]
  | false => []

/-- The command words begin with a command name: not empty, and not looking like an option
unless the marker precedes it. -/
def CommandOk (dd : Bool) : List Word → Prop
  | [] => False
  | w :: _ => w ≠ [] ∧ (dd = false → isDash w = false)

end Libmonitor.Script.Spec
