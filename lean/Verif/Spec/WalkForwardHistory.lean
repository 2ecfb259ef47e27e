import Verif.Spec.WalkForward

/-!
# Observable vocabulary for histories of `split` generators on one `WalkForward` object
-/

namespace Verif.Split

/-- What a client sees: its actions with their results. -/
abbrev WFLog := List (WFEvent × Option NextRes)

/-- The log of a history. -/
def WFWorld.log (c : WFCfg) (w : WFWorld) (es : List WFEvent) : WFLog := es.zip (w.run c es).1

/-- `next` delivered a pair. -/
def isYield : Option NextRes → Bool
  | some (.yielded _) => true
  | _ => false

/-- The action created a generator. -/
def isSplitEvent : WFEvent → Bool
  | .split .. => true
  | .next _ => false

/-- The number of generators created in a log. -/
def generators (l : WFLog) : Nat := l.countP fun p => isSplitEvent p.1

/-- The number of pairs delivered in a log, over all generators. -/
def delivered (l : WFLog) : Nat := l.countP fun p => isYield p.2

/-- The latest result of `next` on generator `i`. -/
def latest (l : WFLog) (i : Nat) : Option NextRes :=
  ((l.filter fun p => decide (p.1 = .next i)).getLast?).bind (·.2)

/-- Generators whose latest result was a pair: they are waiting at their `yield`. -/
def waiting (l : WFLog) : Nat := (List.range (generators l)).countP fun i => isYield (latest l i)

end Verif.Split
