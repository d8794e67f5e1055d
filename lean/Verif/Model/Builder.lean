import Verif.Model.DpEvent

/-!
# Model of `dp_event_builder.py`
-/

namespace Verif

/-- Exceptions raised by the modelled code (class only, messages dropped). `dp_event_builder.py:40-46`, and the `raise` statements of the other modelled files. -/
inductive Err where
  | typeError
  | valueError
  | zeroDivisionError
  | indexError
  | keyError
  | overflowError
  | notImplementedError
  | unsupportedEventError
  deriving DecidableEq, Repr

/-- Argument passed as `event`: a `DpEvent` or any other python object. `dp_event_builder.py:33-42`. -/
inductive EventArg where
  | event (e : DpEvent)
  | notAnEvent

/-- Argument passed as `count`: an `int` or any other python object. `dp_event_builder.py:33-44`. -/
inductive CountArg where
  | int (n : ℤ)
  | notAnInt

/-- Object state of `DpEventBuilder` (`dp_event_builder.py:28-31`): `_event_counts`, `_composed_event`. -/
structure Builder where
  eventCounts : List (DpEvent × ℤ)
  composedEvent : Option DpEvent

namespace Builder

/-- `DpEventBuilder.__init__`, `dp_event_builder.py:28-31`. -/
def init : Builder := ⟨[], none⟩

open Classical in
/-- `dp_event_builder.py:53-57`: merge with the last entry when equal (the *new* event object is kept, with the
summed count), otherwise append; `self._event_counts[-1]` is the last list element. -/
noncomputable def push (l : List (DpEvent × ℤ)) (e : DpEvent) (n : ℤ) : List (DpEvent × ℤ) :=
  match l.getLast? with
  | some (e', m) => if PyEq e' e then l.dropLast ++ [(e, m + n)] else l ++ [(e, n)]
  | none => l ++ [(e, n)]

/-- `DpEventBuilder.compose` on well-typed arguments, `dp_event_builder.py:45-58`.  The type checks of lines
40-44 are in `compose`; in the recursive call (line 51) the arguments are well typed by construction. -/
noncomputable def composeEvent (b : Builder) : DpEvent → ℤ → Builder × Except Err Unit
  | .noOp, n => if n < 1 then (b, .error .valueError) else (b, .ok ())
  | .selfComposed e c, n => if n < 1 then (b, .error .valueError) else composeEvent b e (n * c)
  | e, n => if n < 1 then (b, .error .valueError)
            else ({ eventCounts := push b.eventCounts e n, composedEvent := none }, .ok ())

/-- `DpEventBuilder.compose`, `dp_event_builder.py:33-58`. -/
noncomputable def compose (b : Builder) (event : EventArg) (count : CountArg) : Builder × Except Err Unit :=
  match event with
  | .notAnEvent => (b, .error .typeError)
  | .event e =>
    match count with
    | .notAnInt => (b, .error .typeError)
    | .int n => composeEvent b e n

/-- `dp_event_builder.py:63-68`: the event representing one `(event, count)` entry. -/
def entryEvent : DpEvent × ℤ → DpEvent
  | (e, n) => if n = 1 then e else .selfComposed e n

/-- `dp_event_builder.py:63-74`: the event assembled from the entries. -/
def assemble (l : List (DpEvent × ℤ)) : DpEvent :=
  match l.map entryEvent with
  | [] => .noOp
  | [e] => e
  | es => .composed es

/-- `DpEventBuilder.build`, `dp_event_builder.py:60-76`: returns the cached event or assembles and caches it
(`not self._composed_event` is `self._composed_event is None`, events are always truthy). -/
def build (b : Builder) : Builder × DpEvent :=
  match b.composedEvent with
  | some e => (b, e)
  | none => ({ b with composedEvent := some (assemble b.eventCounts) }, assemble b.eventCounts)

/-- One call on a builder. `dp_event_builder.py:33-76`. -/
inductive Call where
  | compose (event : EventArg) (count : CountArg)
  | build

/-- State after one call. `dp_event_builder.py:33-76`. -/
noncomputable def step (b : Builder) : Call → Builder
  | .compose e n => (b.compose e n).1
  | .build => b.build.1

/-- State after a sequence of calls on a fresh builder. `dp_event_builder.py:28-76`. -/
noncomputable def run (cs : List Call) : Builder := cs.foldl step init

end Builder
end Verif
