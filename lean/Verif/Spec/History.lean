import Verif.Model.Builder

/-!
# Specification: what an event, and a history of calls, mean

`expand e` lists the elementary mechanism applications an event stands for, following the class documentation
in `dp_event.py` ("equivalent to `ComposedDpEvent` that contains a list of length `count` of identical copies of
`event`"); it is independent of the builder and of the accountants.
-/

namespace Verif.Spec

open Verif

/-- `n` copies of a list, one after the other (nothing for `n ≤ 0`). -/
def repeatList {α : Type*} (n : ℤ) (l : List α) : List α := (List.replicate n.toNat l).flatten

mutual
/-- Elementary mechanism applications represented by an event, in order. -/
def expand : DpEvent → List DpEvent
  | .noOp => []
  | .selfComposed e n => repeatList n (expand e)
  | .composed es => expandList es
  | e => [e]
/-- Concatenated expansion of a list of events. -/
def expandList : List DpEvent → List DpEvent
  | [] => []
  | e :: es => expand e ++ expandList es
end

/-- Two lists of events are the same list for python (`==`, elementwise). -/
def SameEvents (l l' : List DpEvent) : Prop := PyEqList l l'

/-- `SelfComposed` chain at the top of an event has only positive counts: exactly the events a builder accepts. -/
def topCountsPos : DpEvent → Prop
  | .selfComposed e n => 1 ≤ n ∧ topCountsPos e
  | _ => True

open Classical in
/-- The elementary applications a single builder call stands for: `count` copies of the event when the
arguments are an event and a positive int (and so are the counts of a `SelfComposed` chain), nothing
otherwise. -/
noncomputable def callMeaning : Builder.Call → List DpEvent
  | .compose (.event e) (.int n) => if 1 ≤ n ∧ topCountsPos e then repeatList n (expand e) else []
  | _ => []

/-- The elementary applications a history of builder calls stands for. -/
noncomputable def historyMeaning (cs : List Builder.Call) : List DpEvent := cs.flatMap callMeaning

end Verif.Spec
