import Verif.Model.Builder

/-!
# Model of `DpEvent.to_named_tuple` / `DpEvent.from_named_tuple`  (`dp_event.py:87-183`)

Python values that occur in event fields are modelled by `PyVal`.  Field names and values are kept in two
parallel lists (`attr.fields(cls)` order).
-/

namespace Verif

/-- Python values reachable from an event. For the values handled in `dp_event.py:109-129` and `149-169`. -/
inductive PyVal where
  /-- a number -/
  | num (n : PyNum)
  /-- an instance of an attrs class (`attr.has(type(value))`), with module, class and field names -/
  | attrObj (module cls : String) (names : List String) (vals : List PyVal)
  /-- an instance of a `DpEventNamedTuple` wrapper; `module_name`/`class_name` are the first two components -/
  | namedTuple (module cls : String) (names : List String) (vals : List PyVal)
  /-- a `Sequence` -/
  | seq (vals : List PyVal)
  /-- a `Mapping` -/
  | mapping (keys : List PyNum) (vals : List PyVal)

namespace PyVal

mutual
/-- `DpEvent.to_named_tuple` on an attrs object, `dp_event.py:87-128`; every other value is returned as it is (this is
the inner helper `_to_named_tuple`, lines 109-112). -/
def toNT : PyVal → PyVal
  | .attrObj m c ns vs => .namedTuple m c ns (toFields vs)
  | v => v
/-- Conversion of the field values, `dp_event.py:115-126`. -/
def toFields : List PyVal → List PyVal
  | [] => []
  | v :: vs => toField v :: toFields vs
/-- `dp_event.py:116-126`: attrs objects are converted, elements of mappings and sequences are converted one
level deep. -/
def toField : PyVal → PyVal
  | .attrObj m c ns vs => .namedTuple m c ns (toFields vs)
  | .mapping ks vs => .mapping ks (toElems vs)
  | .seq vs => .seq (toElems vs)
  | v => v
/-- `[_to_named_tuple(x) for x in value]`, `dp_event.py:119,123`. -/
def toElems : List PyVal → List PyVal
  | [] => []
  | v :: vs => toNT v :: toElems vs
end

mutual
/-- `DpEvent.from_named_tuple` on a named tuple, `dp_event.py:130-183`; other values are returned as they are (helper
`_from_named_tuple`, lines 149-152).  `importlib`/`getattr` lookup of the class and the constructor call
(lines 170-183) yield the object with these fields: the events' constructors take exactly the public fields. -/
def fromNT : PyVal → PyVal
  | .namedTuple m c ns vs => .attrObj m c ns (fromFields vs)
  | v => v
/-- Conversion of the field values, `dp_event.py:154-168`. -/
def fromFields : List PyVal → List PyVal
  | [] => []
  | v :: vs => fromField v :: fromFields vs
/-- `dp_event.py:158-167`. -/
def fromField : PyVal → PyVal
  | .namedTuple m c ns vs => .attrObj m c ns (fromFields vs)
  | .mapping ks vs => .mapping ks (fromElems vs)
  | .seq vs => .seq (fromElems vs)
  | v => v
/-- `[_from_named_tuple(x) for x in value]`, `dp_event.py:161,165`. -/
def fromElems : List PyVal → List PyVal
  | [] => []
  | v :: vs => fromNT v :: fromElems vs
end

end PyVal

/-- `cls.__module__` of the event classes. `dp_event.py:114`. -/
def eventModule : String := "dp_accounting.dp_event"

/-- A list of ints as a python list. For the field of `dp_event.py:351-370`. -/
def intSeq (l : List ℤ) : PyVal := .seq (l.map fun z => .num (.int z))
/-- A list of numbers as a python list. For the fields of `dp_event.py:393-412`. -/
def numSeq (l : List PyNum) : PyVal := .seq (l.map .num)

mutual
/-- The attrs object behind an event: class name, field names and values in declaration order,
`dp_event.py:214-412`. -/
def DpEvent.toPy : DpEvent → PyVal
  | .noOp => .attrObj eventModule "NoOpDpEvent" [] []
  | .nonPrivate => .attrObj eventModule "NonPrivateDpEvent" [] []
  | .unsupported => .attrObj eventModule "UnsupportedDpEvent" [] []
  | .randomizedResponse p k => .attrObj eventModule "RandomizedResponseDpEvent"
      ["noise_parameter", "num_buckets"] [.num p, .num (.int k)]
  | .gaussian z => .attrObj eventModule "GaussianDpEvent" ["noise_multiplier"] [.num z]
  | .laplace z => .attrObj eventModule "LaplaceDpEvent" ["noise_multiplier"] [.num z]
  | .selfComposed e n => .attrObj eventModule "SelfComposedDpEvent" ["event", "count"]
      [e.toPy, .num (.int n)]
  | .composed es => .attrObj eventModule "ComposedDpEvent" ["events"] [.seq (DpEvent.toPyList es)]
  | .poissonSampled q e => .attrObj eventModule "PoissonSampledDpEvent"
      ["sampling_probability", "event"] [.num q, e.toPy]
  | .sampledWithReplacement n m e => .attrObj eventModule "SampledWithReplacementDpEvent"
      ["source_dataset_size", "sample_size", "event"] [.num (.int n), .num (.int m), e.toPy]
  | .sampledWithoutReplacement n m e => .attrObj eventModule "SampledWithoutReplacementDpEvent"
      ["source_dataset_size", "sample_size", "event"] [.num (.int n), .num (.int m), e.toPy]
  | .singleEpochTreeAggregation z s => .attrObj eventModule "SingleEpochTreeAggregationDpEvent"
      ["noise_multiplier", "step_counts"]
      [.num z, match s with | .inl k => .num (.int k) | .inr l => intSeq l]
  | .repeatAndSelect e m s => .attrObj eventModule "RepeatAndSelectDpEvent" ["event", "mean", "shape"]
      [e.toPy, .num m, .num s]
  | .mixtureOfGaussians d ss ps => .attrObj eventModule "MixtureOfGaussiansDpEvent"
      ["standard_deviation", "sensitivities", "sampling_probs"] [.num d, numSeq ss, numSeq ps]
/-- Attrs objects of a list of events. For the field of `dp_event.py:302-309`. -/
def DpEvent.toPyList : List DpEvent → List PyVal
  | [] => []
  | e :: es => e.toPy :: DpEvent.toPyList es
end

end Verif
