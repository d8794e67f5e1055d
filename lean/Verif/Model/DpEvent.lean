import Mathlib.Data.EReal.Basic

/-!
# Model of `dp_event.py`

`DpEvent` models the class hierarchy of
`/repo/python/dp_accounting/dp_accounting/dp_event.py` (lines 78-412): one constructor per event class,
with the attrs fields as arguments.

Numbers: a python number that reaches an event field is an `int`, a finite `float` or `math.inf`
(`PyNum`).  Floats are idealised as reals; NaN and negative infinity are not modelled.
-/

namespace Verif

/-- A python number stored in an event field (floats idealised as exact reals; the int/float
distinction is kept because `rdp_privacy_accountant.py:571,577` tests `isinstance(sigma, float)`). -/
inductive PyNum where
  | int (z : ℤ)
  | float (x : ℝ)
  | inf

namespace PyNum

/-- Numeric value of a python number; python's `==` on numbers compares these values. For the fields of the events in `dp_event.py:245-412`. -/
noncomputable def val : PyNum → EReal
  | .int z => ((z : ℝ) : EReal)
  | .float x => (x : EReal)
  | .inf => ⊤

/-- `isinstance(x, float)` (`rdp_privacy_accountant.py:569`): `math.inf` is a float, ints are not. -/
def isFloat : PyNum → Bool
  | .int _ => false
  | .float _ => true
  | .inf => true

end PyNum

/-- `DpEvent` and its subclasses, `dp_event.py:78-412`.

`step_counts : Union[int, List[int]]` (line 370) is a sum type.  Field values are assumed to be of the annotated
types (attrs does not check them). -/
inductive DpEvent where
  /-- `NoOpDpEvent`, `dp_event.py:214-221`. -/
  | noOp
  /-- `NonPrivateDpEvent`, `dp_event.py:224-231`. -/
  | nonPrivate
  /-- `UnsupportedDpEvent`, `dp_event.py:234-242`. -/
  | unsupported
  /-- `RandomizedResponseDpEvent`, `dp_event.py:245-260`. -/
  | randomizedResponse (noiseParameter : PyNum) (numBuckets : ℤ)
  /-- `GaussianDpEvent`, `dp_event.py:263-271`. -/
  | gaussian (noiseMultiplier : PyNum)
  /-- `LaplaceDpEvent`, `dp_event.py:274-285`. -/
  | laplace (noiseMultiplier : PyNum)
  /-- `SelfComposedDpEvent`, `dp_event.py:288-299`. -/
  | selfComposed (event : DpEvent) (count : ℤ)
  /-- `ComposedDpEvent`, `dp_event.py:302-309`. -/
  | composed (events : List DpEvent)
  /-- `PoissonSampledDpEvent`, `dp_event.py:312-321`. -/
  | poissonSampled (samplingProbability : PyNum) (event : DpEvent)
  /-- `SampledWithReplacementDpEvent`, `dp_event.py:324-335`. -/
  | sampledWithReplacement (sourceDatasetSize sampleSize : ℤ) (event : DpEvent)
  /-- `SampledWithoutReplacementDpEvent`, `dp_event.py:338-348`. -/
  | sampledWithoutReplacement (sourceDatasetSize sampleSize : ℤ) (event : DpEvent)
  /-- `SingleEpochTreeAggregationDpEvent`, `dp_event.py:351-370`. -/
  | singleEpochTreeAggregation (noiseMultiplier : PyNum) (stepCounts : ℤ ⊕ List ℤ)
  /-- `RepeatAndSelectDpEvent`, `dp_event.py:373-390`. -/
  | repeatAndSelect (event : DpEvent) (mean shape : PyNum)
  /-- `MixtureOfGaussiansDpEvent`, `dp_event.py:393-412`. -/
  | mixtureOfGaussians (standardDeviation : PyNum) (sensitivities samplingProbs : List PyNum)

instance : Inhabited DpEvent := ⟨.noOp⟩

mutual
/-- Python's `==` on events: attrs-generated equality (`attr.s(frozen=True)`, `dp_event.py:78` and every
subclass) compares the class and the tuples of fields, recursively, and compares numbers by value
(`1 == 1.0`). -/
inductive PyEq : DpEvent → DpEvent → Prop where
  | noOp : PyEq .noOp .noOp
  | nonPrivate : PyEq .nonPrivate .nonPrivate
  | unsupported : PyEq .unsupported .unsupported
  | randomizedResponse {p p' k} : p.val = p'.val →
      PyEq (.randomizedResponse p k) (.randomizedResponse p' k)
  | gaussian {z z'} : z.val = z'.val → PyEq (.gaussian z) (.gaussian z')
  | laplace {z z'} : z.val = z'.val → PyEq (.laplace z) (.laplace z')
  | selfComposed {e e' n} : PyEq e e' → PyEq (.selfComposed e n) (.selfComposed e' n)
  | composed {es es'} : PyEqList es es' → PyEq (.composed es) (.composed es')
  | poissonSampled {q q' e e'} : q.val = q'.val → PyEq e e' →
      PyEq (.poissonSampled q e) (.poissonSampled q' e')
  | sampledWithReplacement {n m e e'} : PyEq e e' →
      PyEq (.sampledWithReplacement n m e) (.sampledWithReplacement n m e')
  | sampledWithoutReplacement {n m e e'} : PyEq e e' →
      PyEq (.sampledWithoutReplacement n m e) (.sampledWithoutReplacement n m e')
  | singleEpochTreeAggregation {z z' s} : z.val = z'.val →
      PyEq (.singleEpochTreeAggregation z s) (.singleEpochTreeAggregation z' s)
  | repeatAndSelect {e e' m m' s s'} : PyEq e e' → m.val = m'.val → s.val = s'.val →
      PyEq (.repeatAndSelect e m s) (.repeatAndSelect e' m' s')
  | mixtureOfGaussians {d d' ss ss' ps ps'} : d.val = d'.val →
      ss.map PyNum.val = ss'.map PyNum.val → ps.map PyNum.val = ps'.map PyNum.val →
      PyEq (.mixtureOfGaussians d ss ps) (.mixtureOfGaussians d' ss' ps')
/-- Elementwise python equality of event lists. The `__eq__` that `attr.s` gives to the field `events` of `dp_event.py:302-309`. -/
inductive PyEqList : List DpEvent → List DpEvent → Prop where
  | nil : PyEqList [] []
  | cons {e e' es es'} : PyEq e e' → PyEqList es es' → PyEqList (e :: es) (e' :: es')
end

end Verif
