import Verif.Mpi.Model

/-!
# What the client should see (no counters)

`inInit`/`inFini` say whether the call is made (at any depth) inside another
initialisation/finalisation call.
-/

namespace Libmonitor.Mpi.Spec

mutual
/-- The events of a call: callbacks belong exactly to the calls that are not nested inside
another call of the same kind. -/
def events (inInit inFini : Bool) : Call → List Ev
  | .init w pre body post =>
    [Ev.initEnter w] ++ (if inInit then [] else Ev.preInit :: eventsList true inFini pre) ++
    ([Ev.realInit w] ++ eventsList true inFini body ++ [Ev.realInitRet w]) ++
    (if inInit then [] else Ev.initMpi :: eventsList true inFini post) ++ [Ev.initLeave w]
  | .fini w pre body post =>
    [Ev.finiEnter w] ++ (if inFini then [] else Ev.finiMpi :: eventsList inInit true pre) ++
    ([Ev.realFini w] ++ eventsList inInit true body ++ [Ev.realFiniRet w]) ++
    (if inFini then [] else Ev.postFini :: eventsList inInit true post) ++ [Ev.finiLeave w]
  | .commRank _ body size rank => eventsList inInit inFini body ++ [Ev.rankKnown size rank]
  | .setSizeRank size rank => [Ev.clientSet size rank]

def eventsList (inInit inFini : Bool) : List Call → List Ev
  | [] => []
  | c :: cs => events inInit inFini c ++ eventsList inInit inFini cs
end

/-- Number of initialisation wrappers entered and not yet left in a history. -/
def openInits (h : List Ev) : Int :=
  (h.countP fun e => match e with | .initEnter _ => true | _ => false) -
  (h.countP fun e => match e with | .initLeave _ => true | _ => false)

/-- Some initialisation wrapper was entered in a history. -/
def initSeen (h : List Ev) : Bool :=
  h.any fun e => match e with | .initEnter _ => true | _ => false

/-- The first usable size and rank of a history: an explicit client setting, or a rank
query answered after an initialisation and outside of any. `past` is the history before. -/
def firstUsable (past : List Ev) : List Ev → Option (Int × Int)
  | [] => none
  | .clientSet size rank :: _ => some (size, rank)
  | .rankKnown size rank :: h =>
    if openInits past = 0 ∧ initSeen past = true then some (size, rank)
    else firstUsable (past ++ [.rankKnown size rank]) h
  | e :: h => firstUsable (past ++ [e]) h

end Libmonitor.Mpi.Spec
