import Verif.Model.Builder
import Mathlib.Analysis.SpecialFunctions.Log.Basic
import Mathlib.Analysis.SpecialFunctions.Complex.Log
import Mathlib.Data.Int.Interval
import Mathlib.Data.List.Basic

/-!
# Model of the dictionary / list / convolution helpers of `pld/common.py`

Python dictionaries from `int` to `float` are association lists in insertion order (`PyDict`). Floats are exact reals.
`scipy.signal.fftconvolve` is the exact full convolution; `scipy.fft.fft`/`ifft` are the exact discrete Fourier
transforms; `scipy.fft.next_fast_len` is a parameter.
-/

namespace Verif
open scoped BigOperators

/-- A python dictionary with integer keys and float values, in insertion order. The mappings of `pld/common.py:126-127`, `148`, `185-187`. -/
abbrev PyDict := List (ℤ × ℝ)

namespace PyDict

/-- `d.get(k, 0)` -/
def get (d : PyDict) (k : ℤ) : ℝ :=
  match d with
  | [] => 0
  | (k', v) :: d => if k' = k then v else get d k

/-- `d[k] = v`: overwrite in place, or append a new key. `pld/common.py:179-181`. -/
def set (d : PyDict) (k : ℤ) (v : ℝ) : PyDict :=
  match d with
  | [] => [(k, v)]
  | (k', v') :: d => if k' = k then (k, v) :: d else (k', v') :: set d k v

/-- `d[k] = d.get(k, 0) + v`, also `d[k] += v` on a `defaultdict(lambda: 0)`. -/
noncomputable def add (d : PyDict) (k : ℤ) (v : ℝ) : PyDict := d.set k (d.get k + v)

/-- `d.keys()`. `pld/common.py:140-141`. -/
def keys (d : PyDict) : List ℤ := d.map Prod.fst

/-- `sorted(d.keys())`. `pld/pld_pmf.py:477`, `514`. -/
def sortedKeys (d : PyDict) : List ℤ := d.keys.mergeSort (fun a b => decide (a ≤ b))

end PyDict

namespace PldCommon

/-- `min(d)` over a non-empty list of keys (`common.py:139`). -/
def minKey : ℤ → List ℤ → ℤ
  | m, [] => m
  | m, k :: ks => minKey (min m k) ks

/-- `max(d)` over a non-empty list of keys (`common.py:140`). -/
def maxKey : ℤ → List ℤ → ℤ
  | m, [] => m
  | m, k :: ks => maxKey (max m k) ks

/-- Python's `range(a, b)`. `pld/common.py:142`, `179`. -/
def pyRange (a b : ℤ) : List ℤ := (List.range (b - a).toNat).map fun (i : ℕ) => a + (i : ℤ)

/-- `dictionary_to_list`, `common.py:126-143`; `min` of an empty dictionary raises `ValueError`. -/
def dictionaryToList (d : PyDict) : Except Err (ℤ × List ℝ) :=
  match d.keys with
  | [] => .error .valueError
  | k :: ks =>
    let offset := minKey k ks
    let maxVal := maxKey k ks
    .ok (offset, (pyRange offset (maxVal + 1)).map fun i => d.get i)

open Classical in
/-- The truncation loops of `list_to_dictionary`, `common.py:163-176`: number of leading entries dropped, i.e. the
first index at which the running sum `s` exceeds `threshold`, or the length. The second loop (lines 170-176) is the same
loop on the reversed list. -/
noncomputable def dropCount (threshold : ℝ) : ℝ → List ℝ → ℕ
  | _, [] => 0
  | s, v :: vs => if s + v > threshold then 0 else dropCount threshold (s + v) vs + 1

open Classical in
/-- The final loop of `list_to_dictionary`, `common.py:178-181`: keys `i + offset` for indices `lo ≤ i < hi` with a
positive entry (`hi = upper_truncation_index + 1`). `i` is the index of the head of the list. -/
noncomputable def collectPositive (offset : ℤ) (lo hi : ℕ) : ℕ → List ℝ → PyDict
  | _, [] => []
  | i, v :: vs =>
    if lo ≤ i ∧ i < hi ∧ v > 0 then (((i : ℤ) + offset), v) :: collectPositive offset lo hi (i + 1) vs
    else collectPositive offset lo hi (i + 1) vs

/-- `list_to_dictionary`, `common.py:146-182`. -/
noncomputable def listToDictionary (l : List ℝ) (offset : ℤ) (tailMassTruncation : ℝ) : PyDict :=
  let lower := dropCount (tailMassTruncation / 2) 0 l
  let upper := l.length - dropCount (tailMassTruncation / 2) 0 l.reverse
  collectPositive offset lower upper 0 l

/-- `scipy.signal.fftconvolve(a, b)` in mode `full`, exact: entry `k` is `Σ_{i ≤ k} a[i] b[k-i]`;
an empty argument gives an empty array. Called in `pld/common.py:207` and `pld/pld_pmf.py:341`. -/
noncomputable def fftconvolve (a b : List ℝ) : List ℝ :=
  if a.length = 0 ∨ b.length = 0 then []
  else (List.range (a.length + b.length - 1)).map fun k =>
    ∑ i ∈ Finset.range (k + 1), a.getD i 0 * b.getD (k - i) 0

/-- `convolve_dictionary`, `common.py:185-211`. -/
noncomputable def convolveDictionary (d1 d2 : PyDict) (tailMassTruncation : ℝ) : Except Err PyDict := do
  let (min1, list1) ← dictionaryToList d1
  let (min2, list2) ← dictionaryToList d2
  .ok (listToDictionary (fftconvolve list1 list2) (min1 + min2) tailMassTruncation)

/-- Moment generating function of a list at `order`: `Σ_i l[i] exp(i * order)` (the argument of the log in
`special.logsumexp(np.arange(len(l)) * order, b=l)`, `common.py:246`). `i` is the index of the head. -/
noncomputable def mgf (order : ℝ) : ℕ → List ℝ → ℝ
  | _, [] => 0
  | i, v :: vs => v * Real.exp (i * order) + mgf order (i + 1) vs

/-- The default orders, `common.py:240-242`: `concatenate(arange(-20, 0), arange(1, 21)) / len(input_list)`. -/
noncomputable def defaultOrders (len : ℕ) : List ℝ :=
  (pyRange (-20) 0 ++ pyRange 1 21).map fun (k : ℤ) => (k : ℝ) / (len : ℝ)

open Classical in
/-- The loop of `compute_self_convolve_bounds`, `common.py:250-258`. `math.log` of a non-positive number raises
`ValueError`; a zero moment gives `logsumexp = -inf` and `math.ceil`/`math.floor` of an infinity raises `OverflowError`;
a negative one gives NaN and `ValueError`; a zero order raises `ZeroDivisionError`. -/
noncomputable def boundsLoop (l : List ℝ) (n : ℕ) (t : ℝ) : List ℝ → ℤ → ℤ → Except Err (ℤ × ℤ)
  | [], lower, upper => .ok (lower, upper)
  | order :: orders, lower, upper =>
    if t < 0 then .error .valueError
    else if order = 0 then .error .zeroDivisionError
    else if mgf order 0 l = 0 then .error .overflowError
    else if mgf order 0 l < 0 then .error .valueError
    else
      let bound := ((n : ℝ) * Real.log (mgf order 0 l) + Real.log (2 / t)) / order
      if order > 0 then boundsLoop l n t orders lower (min upper ⌈bound⌉)
      else boundsLoop l n t orders (max lower ⌊bound⌋) upper

open Classical in
/-- `compute_self_convolve_bounds`, `common.py:214-260`, with explicit `orders`. -/
noncomputable def computeSelfConvolveBounds (l : List ℝ) (n : ℕ) (t : ℝ) (orders : List ℝ) : Except Err (ℤ × ℤ) :=
  if t = 0 then .ok (0, ((l.length : ℤ) - 1) * n)
  else boundsLoop l n t orders 0 (((l.length : ℤ) - 1) * n)

/-- `scipy.fft.fft(l, N)[k]`: `Σ_{j<N} l[j] exp(-2πi jk/N)`, the input padded with zeros (or cut) to length `N`. -/
noncomputable def fft (l : List ℝ) (N : ℕ) (k : ℕ) : ℂ :=
  ∑ j ∈ Finset.range N, (l.getD j 0 : ℂ) * Complex.exp (-(2 * Real.pi * Complex.I * j * k / N))

/-- `scipy.fft.ifft(y)[m]` for an array `y` of length `N`: `(1/N) Σ_{k<N} y[k] exp(2πi km/N)`. -/
noncomputable def ifft (y : ℕ → ℂ) (N : ℕ) (m : ℕ) : ℂ :=
  (1 / (N : ℂ)) * ∑ k ∈ Finset.range N, y k * Complex.exp (2 * Real.pi * Complex.I * k * m / N)

/-- Python's slice `a[:n]` for an integer `n` of any sign. `pld/common.py:293`. -/
def sliceTo (a : List ℝ) (n : ℤ) : List ℝ :=
  if 0 ≤ n then a.take n.toNat else a.take (a.length - (-n).toNat)

/-- `self_convolve`, `common.py:263-295`. `nextFastLen` is `fft.next_fast_len`.
`np.roll(a, -s)[i] = a[(i + s) mod len(a)]`. An empty input raises `ValueError` (inside scipy). -/
noncomputable def selfConvolve (nextFastLen : ℕ → ℕ) (l : List ℝ) (n : ℕ) (t : ℝ) : Except Err (ℤ × List ℝ) :=
  if l.length = 0 then .error .valueError
  else
    match computeSelfConvolveBounds l n t (defaultOrders l.length) with
    | .error e => .error e
    | .ok (lower, upper) =>
      let outputLen := upper - lower + 1
      let N := nextFastLen (max outputLen (l.length : ℤ)).toNat
      let conv : ℕ → ℝ := fun m => (ifft (fun k => (fft l N k) ^ n) N m).re
      let rolled := (List.range N).map fun (i : ℕ) => conv (((i : ℤ) + lower) % (N : ℤ)).toNat
      .ok (lower, sliceTo rolled outputLen)

/-- `self_convolve_dictionary`, `common.py:298-321`. -/
noncomputable def selfConvolveDictionary (nextFastLen : ℕ → ℕ) (d : PyDict) (n : ℕ) (t : ℝ) : Except Err PyDict := do
  let (minVal, inputList) ← dictionaryToList d
  let (minConv, outputList) ← selfConvolve nextFastLen inputList n t
  .ok (listToDictionary outputList (minVal * n + minConv) 0)

end PldCommon
end Verif
