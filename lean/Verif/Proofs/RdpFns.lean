import Verif.Model.Rdp
import Verif.Props.LogDomain
import Verif.Proofs.RdpGaussian

/-! # The RDP functions of the model in closed form -/

namespace Verif.Rdp
open Verif Verif.Spec Verif.Pld LogDomain MeasureTheory ProbabilityTheory

lemma logComb_nat (n k : ℕ) (h : k ≤ n) : logComb n k = Real.log (n.choose k) := by
  have e : (n : ℝ) - k + 1 = ((n - k : ℕ) : ℝ) + 1 := by rw [Nat.cast_sub h]
  unfold logComb gammaln
  rw [e, Real.Gamma_nat_eq_factorial, Real.Gamma_nat_eq_factorial, Real.Gamma_nat_eq_factorial, Nat.choose_eq_factorial_div_factorial h,
    Nat.cast_div (Nat.factorial_mul_factorial_dvd_factorial h) (by positivity), Real.log_div (by positivity) (by positivity)]
  push_cast
  rw [Real.log_mul (by positivity) (by positivity)]
  ring

lemma exp_term {q : ℝ} (h0 : 0 < q) (h1 : q < 1) (sigma : PyNum) (m k : ℕ) (hk : k ≤ m) :
    Real.exp (logAIntTerm q sigma m k) = m.choose k * (1 - q) ^ (m - k) * q ^ k * Real.exp (((k : ℝ) ^ 2 - k) * halfInvSq sigma) := by
  unfold logAIntTerm
  simp only [Int.cast_natCast]
  have hc : (0 : ℝ) < m.choose k := by exact_mod_cast Nat.choose_pos hk
  rw [logComb_nat m k hk, Real.exp_add, Real.exp_add, Real.exp_add, Real.exp_log hc, ← sub_eq_add_neg, ← Nat.cast_sub hk, mul_comm (k : ℝ) (Real.log q),
    mul_comm ((m - k : ℕ) : ℝ), Real.exp_mul, Real.exp_mul, Real.exp_log h0, Real.exp_log (by linarith), Real.rpow_natCast, Real.rpow_natCast, ← sq]
  ring

lemma expLog_fold (l : List ℕ) (t : ℕ → ℝ) (acc : LogProb) :
    expLog (l.foldl (fun a i => logAdd a (t i : LogProb)) acc) = expLog acc + (l.map fun i => Real.exp (t i)).sum := by
  induction l generalizing acc with
  | nil => simp
  | cons i l ih =>
    rw [List.foldl_cons, ih, Props.C29_log_add, List.map_cons, List.sum_cons, expLog_coe]
    ring

lemma toEReal_of_expLog {x : LogProb} {y : ℝ} (h : expLog x = y) (hy : 0 < y) : toEReal x = ((Real.log y : ℝ) : EReal) := by
  cases x using WithBot.recBotCoe with
  | bot => simp [expLog] at h; exact absurd h hy.ne
  | coe x => rw [expLog_coe] at h; rw [← h, Real.log_exp]; rfl

lemma sum_map_range (f : ℕ → ℝ) (n : ℕ) : ((List.range n).map f).sum = ∑ k ∈ Finset.range n, f k := by
  induction n with
  | zero => simp
  | succ n ih => rw [List.range_succ, List.map_append, List.sum_append, ih, Finset.sum_range_succ]; simp

/-- `_compute_log_a_int` at a natural order. -/
lemma logAInt_nat {q : ℝ} (h0 : 0 < q) (h1 : q < 1) (sigma : PyNum) (m : ℕ) (v : NNReal) (hv : halfInvSq sigma = 1 / (2 * v)) :
    toEReal (logAInt q sigma m) = ((Real.log (mixMoment q v m) : ℝ) : EReal) := by
  refine toEReal_of_expLog ?_ (mixMoment_pos h0.le h1.le v m)
  unfold logAInt
  rw [expLog_fold]
  have e : ((m : ℤ) + 1).toNat = m + 1 := by omega
  rw [e]
  have hb : expLog (⊥ : LogProb) = 0 := rfl
  rw [hb, zero_add, mixMoment, sum_map_range]
  refine Finset.sum_congr rfl fun k hk => ?_
  rw [Finset.mem_range] at hk
  rw [exp_term h0 h1 sigma m k (by omega), hv, mul_one_div]

lemma logA_nat {frac} {q : ℝ} (h0 : 0 < q) (h1 : q < 1) (sigma : PyNum) (m : ℕ) (v : NNReal) (hv : halfInvSq sigma = 1 / (2 * v)) :
    logA frac q sigma m = ((Real.log (mixMoment q v m) : ℝ) : EReal) := by
  have h : ∃ k : ℤ, (m : ℝ) = k := ⟨m, by simp⟩
  unfold logA
  rw [dif_pos h]
  have : h.choose = (m : ℤ) := by
    have := h.choose_spec
    exact_mod_cast this.symm
  rw [this, logAInt_nat h0 h1 sigma m v hv]

/-- The noise multiplier as a positive real. -/
lemma halfInvSq_eq {sigma : PyNum} {z : ℝ} (h : sigma.val = (z : EReal)) : halfInvSq sigma = 1 / (2 * (Real.toNNReal (z ^ 2) : ℝ)) := by
  rw [Real.coe_toNNReal _ (sq_nonneg z)]
  cases sigma with
  | int i =>
    have : (i : ℝ) = z := by simpa [PyNum.val] using h
    simp [halfInvSq, this]
  | float x =>
    have : x = z := by simpa [PyNum.val] using h
    simp [halfInvSq, this]
  | inf => simp [PyNum.val] at h

lemma collect_ok {n : ℕ} {f : Fin n → Except Err EReal} {a : Arr n} (h : collect f = .ok a) (i : Fin n) : f i = .ok (a i) := by
  unfold collect at h
  split at h
  · simp at h
  · rename_i hn
    rw [List.findSome?_eq_none_iff] at hn
    have h1 := hn (f i) (List.mem_ofFn.2 ⟨i, rfl⟩)
    simp only [Except.ok.injEq] at h
    rw [← h]
    simp only
    cases hf : f i with
    | error e => rw [hf] at h1; simp at h1
    | ok x => rfl

end Verif.Rdp
