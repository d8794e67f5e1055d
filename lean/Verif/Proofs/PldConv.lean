import Verif.Proofs.PldPoints
import Mathlib.Algebra.Polynomial.Eval.Defs
import Mathlib.Algebra.Polynomial.Eval.Coeff
import Mathlib.Algebra.Polynomial.BigOperators
import Mathlib.Algebra.Polynomial.Degree.Lemmas
import Mathlib.Algebra.Ring.GeomSum
import Mathlib.Analysis.SpecialFunctions.Complex.Circle
import Mathlib.Tactic.FieldSimp
import Mathlib.Data.List.GetD

/-! Convolutions as polynomial products; the discrete Fourier transform. -/

namespace Verif
open Spec Polynomial PldCommon
open scoped BigOperators

/-- Generating polynomial of a list. -/
noncomputable def polyOf (l : List ℝ) : ℝ[X] := ∑ i ∈ Finset.range l.length, C (l.getD i 0) * X ^ i

/-- `Σ_i coeff_i f(i)` -/
noncomputable def pE (p : ℝ[X]) (f : ℕ → ℝ) : ℝ := p.sum fun i c => c * f i

lemma polyOf_coeff (l : List ℝ) (i : ℕ) : (polyOf l).coeff i = l.getD i 0 := by
  unfold polyOf
  simp only [finsetSum_coeff, coeff_C_mul, coeff_X_pow]
  by_cases h : i < l.length
  · rw [Finset.sum_eq_single i]
    · simp
    · intro b _ hb; simp [hb.symm]
    · intro h'; exact absurd (Finset.mem_range.2 h) h'
  · rw [List.getD_eq_default _ _ (not_lt.1 h)]
    apply Finset.sum_eq_zero
    intro b hb
    have : i ≠ b := by have := Finset.mem_range.1 hb; omega
    simp [this]

lemma polyOf_natDegree_le (l : List ℝ) : (polyOf l).natDegree ≤ l.length - 1 := by
  rw [natDegree_le_iff_coeff_eq_zero]
  intro N hN
  rw [polyOf_coeff, List.getD_eq_default]
  omega

lemma pE_eq_sum (p : ℝ[X]) (f : ℕ → ℝ) (N : ℕ) (h : p.natDegree < N) :
    pE p f = ∑ i ∈ Finset.range N, p.coeff i * f i := by
  unfold pE
  rw [sum_over_range' p (by intro; simp) N h]

lemma pE_add (p q : ℝ[X]) (f : ℕ → ℝ) : pE (p + q) f = pE p f + pE q f := by
  unfold pE
  rw [sum_add_index p q _ (by intro; simp)]
  intro a b c; ring

lemma pE_monomial (n : ℕ) (c : ℝ) (f : ℕ → ℝ) : pE (monomial n c) f = c * f n := by
  unfold pE; rw [sum_monomial_index _ _ (by simp)]

lemma pE_fun_add (p : ℝ[X]) (f g : ℕ → ℝ) : pE p (fun i => f i + g i) = pE p f + pE p g := by
  unfold pE; rw [← sum_add']
  congr 1
  ext i c; simp; ring

lemma pE_fun_mul (p : ℝ[X]) (c : ℝ) (f : ℕ → ℝ) : pE p (fun i => c * f i) = c * pE p f := by
  unfold pE Polynomial.sum; rw [Finset.mul_sum]; apply Finset.sum_congr rfl; intros; ring

lemma pE_mul (p q : ℝ[X]) (f : ℕ → ℝ) : pE (p * q) f = pE p (fun i => pE q fun j => f (i + j)) := by
  induction p using Polynomial.induction_on' with
  | add p1 p2 h1 h2 => rw [add_mul, pE_add, h1, h2, pE_add]
  | monomial n a =>
    rw [pE_monomial]
    induction q using Polynomial.induction_on' with
    | add q1 q2 h1 h2 =>
      rw [mul_add, pE_add, h1, h2, pE_add]; ring
    | monomial m b => rw [monomial_mul_monomial, pE_monomial, pE_monomial]; ring

lemma pE_one (f : ℕ → ℝ) : pE 1 f = f 0 := by
  rw [show (1 : ℝ[X]) = monomial 0 1 from rfl, pE_monomial]; ring

lemma pE_polyOf (l : List ℝ) (f : ℕ → ℝ) : pE (polyOf l) f = ∑ i ∈ Finset.range l.length, l.getD i 0 * f i := by
  by_cases h : l.length = 0
  · have : l = [] := List.length_eq_zero_iff.1 h
    subst this; simp [polyOf, pE]
  · rw [pE_eq_sum _ _ l.length (by have := polyOf_natDegree_le l; omega)]
    apply Finset.sum_congr rfl; intro i _; rw [polyOf_coeff]

lemma expect_range (n : ℕ) (g : ℕ → ℤ) (h : ℕ → ℝ) (φ : ℤ → ℝ) :
    expect ((List.range n).map fun i => (g i, h i)) φ = ∑ i ∈ Finset.range n, h i * φ (g i) := by
  unfold expect
  rw [List.map_map, Finset.sum_range]
  induction n with
  | zero => simp
  | succ n ih =>
    rw [List.range_succ, List.map_append, List.sum_append, ih, Fin.sum_univ_castSucc]
    simp

lemma expect_dense (d : Dense) (φ : ℤ → ℝ) :
    expect d.points φ = pE (polyOf d.probs) (fun i => φ (d.lowerLoss + i)) := by
  rw [pE_polyOf]; exact expect_range _ _ _ _

lemma polyOf_fftconvolve (a b : List ℝ) : polyOf (fftconvolve a b) = polyOf a * polyOf b := by
  unfold fftconvolve
  by_cases h : a.length = 0 ∨ b.length = 0
  · rw [if_pos h]
    rcases h with h | h
    · rw [List.length_eq_zero_iff.1 h]; simp [polyOf]
    · rw [List.length_eq_zero_iff.1 h]; simp [polyOf]
  · rw [if_neg h]
    push Not at h
    ext k
    rw [polyOf_coeff, coeff_mul, Finset.Nat.sum_antidiagonal_eq_sum_range_succ_mk]
    by_cases hk : k < a.length + b.length - 1
    · rw [List.getD_eq_getElem _ _ (by simpa using hk)]
      simp only [List.getElem_map, List.getElem_range, polyOf_coeff]
    · rw [List.getD_eq_default _ _ (by simpa using hk)]
      symm
      apply Finset.sum_eq_zero
      intro i hi
      simp only [polyOf_coeff]
      have hi' := Finset.mem_range.1 hi
      by_cases hia : i < a.length
      · rw [List.getD_eq_default b, mul_zero]; omega
      · rw [List.getD_eq_default a, zero_mul]; omega

lemma fftconvolve_length (a b : List ℝ) (ha : a ≠ []) (hb : b ≠ []) :
    (fftconvolve a b).length = a.length + b.length - 1 := by
  unfold fftconvolve
  rw [if_neg]
  · simp
  · simp [ha, hb]

/-! ### DFT -/

lemma fft_eval (l : List ℝ) (N k : ℕ) (hN : l.length ≤ N) :
    fft l N k = ((polyOf l).map Complex.ofRealHom).eval (Complex.exp (-(2 * Real.pi * Complex.I * k / N))) := by
  have hd : ((polyOf l).map Complex.ofRealHom).natDegree < N + 1 := by
    have h1 := natDegree_map_le (f := Complex.ofRealHom) (p := polyOf l)
    have h2 := polyOf_natDegree_le l
    omega
  rw [eval_eq_sum_range' hd, Finset.sum_range_succ]
  have hz : (polyOf l).coeff N = 0 := by rw [polyOf_coeff, List.getD_eq_default _ _ hN]
  rw [coeff_map, hz, map_zero, zero_mul, add_zero]
  unfold fft
  apply Finset.sum_congr rfl
  intro j _
  rw [coeff_map, polyOf_coeff, ← Complex.exp_nat_mul]
  congr 2
  ring

lemma exp_root_sum (N : ℕ) (hN : 0 < N) (d : ℤ) :
    ∑ k ∈ Finset.range N, Complex.exp (2 * Real.pi * Complex.I * k * d / N) = if (N : ℤ) ∣ d then (N : ℂ) else 0 := by
  have hN' : (N : ℂ) ≠ 0 := by exact_mod_cast hN.ne'
  have hterm : ∀ k : ℕ, Complex.exp (2 * Real.pi * Complex.I * k * d / N) =
      Complex.exp (2 * Real.pi * Complex.I * d / N) ^ k := by
    intro k; rw [← Complex.exp_nat_mul]; congr 1; ring
  simp only [hterm]
  by_cases h : (N : ℤ) ∣ d
  · rw [if_pos h]
    obtain ⟨c, rfl⟩ := h
    have : Complex.exp (2 * Real.pi * Complex.I * ((N : ℤ) * c : ℤ) / N) = 1 := by
      rw [Complex.exp_eq_one_iff]
      refine ⟨c, ?_⟩
      push_cast; field_simp
    simp only [this, one_pow, Finset.sum_const, Finset.card_range, nsmul_eq_mul, mul_one]
  · rw [if_neg h]
    set z := Complex.exp (2 * Real.pi * Complex.I * d / N) with hz
    have hz1 : z ≠ 1 := by
      intro h1
      rw [hz, Complex.exp_eq_one_iff] at h1
      obtain ⟨c, hc⟩ := h1
      apply h
      refine ⟨c, ?_⟩
      have h2 : (2 * Real.pi * Complex.I : ℂ) ≠ 0 := Complex.two_pi_I_ne_zero
      have h3 : (2 * Real.pi * Complex.I : ℂ) * (d : ℂ) = (2 * Real.pi * Complex.I) * ((N : ℂ) * c) := by
        field_simp at hc
        linear_combination (2 * Real.pi * Complex.I : ℂ) * hc
      have h4 := mul_left_cancel₀ h2 h3
      exact_mod_cast h4
    have hzN : z ^ N = 1 := by
      rw [hz, ← Complex.exp_nat_mul, Complex.exp_eq_one_iff]
      refine ⟨d, ?_⟩
      field_simp
    have := mul_geom_sum z N
    rw [hzN, sub_self] at this
    exact (mul_eq_zero.1 this).resolve_left (sub_ne_zero.2 hz1)

/-- The FFT power computes the circular convolution power. -/
lemma ifft_fft_pow (l : List ℝ) (N n m : ℕ) (hN : 0 < N) (hl : l.length ≤ N) :
    (ifft (fun k => (fft l N k) ^ n) N m).re =
      pE ((polyOf l) ^ n) (fun s => if (N : ℤ) ∣ (m : ℤ) - s then 1 else 0) := by
  have hN' : (N : ℂ) ≠ 0 := by exact_mod_cast hN.ne'
  set p := (polyOf l) ^ n with hp
  set D := p.natDegree + 1 with hD
  have hval : ∀ k : ℕ, (fft l N k) ^ n =
      ∑ s ∈ Finset.range D, (p.coeff s : ℂ) * Complex.exp (-(2 * Real.pi * Complex.I * k / N)) ^ s := by
    intro k
    rw [fft_eval l N k hl, ← eval_pow, ← Polynomial.map_pow, ← hp]
    have hd : (p.map Complex.ofRealHom).natDegree < D := by
      have h1 := natDegree_map_le (f := Complex.ofRealHom) (p := p); omega
    rw [eval_eq_sum_range' hd]
    apply Finset.sum_congr rfl
    intro s _; rw [coeff_map]; rfl
  have hmain : ifft (fun k => (fft l N k) ^ n) N m =
      ∑ s ∈ Finset.range D, (p.coeff s : ℂ) * (if (N : ℤ) ∣ (m : ℤ) - s then 1 else 0) := by
    unfold ifft
    simp only [hval]
    simp only [Finset.sum_mul]
    rw [Finset.sum_comm, Finset.mul_sum]
    apply Finset.sum_congr rfl
    intro s _
    have hterm : ∀ k : ℕ, (p.coeff s : ℂ) * Complex.exp (-(2 * Real.pi * Complex.I * k / N)) ^ s *
        Complex.exp (2 * Real.pi * Complex.I * k * m / N) =
        (p.coeff s : ℂ) * Complex.exp (2 * Real.pi * Complex.I * k * (((m : ℤ) - s : ℤ) : ℂ) / N) := by
      intro k
      rw [← Complex.exp_nat_mul, mul_assoc, ← Complex.exp_add]
      congr 2
      push_cast; ring
    simp only [hterm]
    rw [← Finset.mul_sum, exp_root_sum N hN]
    split_ifs
    · field_simp
    · ring
  rw [hmain, pE_eq_sum p _ D (by omega), Complex.re_sum]
  apply Finset.sum_congr rfl
  intro s _
  split_ifs <;> simp

end Verif
