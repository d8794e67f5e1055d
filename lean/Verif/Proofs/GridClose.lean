import Verif.Proofs.NoiseMonotoneInst
import Verif.Proofs.ConnectDotsGap
import Verif.Props.AdditiveNoisePld
import Verif.Proofs.NoiseNear
import Verif.Proofs.LaplaceLaw

/-! # A grid point just above `log(1 - q)`: the deltas of sampled Laplace noise may increase, and the constructor raises -/

namespace Verif.Mech
open Spec MeasureTheory PldPmf

/-- Connect-the-dots rejects deltas that increase somewhere. -/
lemma fixedGap_increase {disc : ℝ} {lower upper : ℤ} {deltas : List ℝ} {i j : ℕ} (hij : i < j) (hj : j < deltas.length)
    (h : deltas[i] < deltas[j]) : connectDotsFixedGap disc lower upper deltas = .error .valueError := by
  unfold connectDotsFixedGap
  by_cases h1 : upper < lower
  · rw [if_pos h1]
  rw [if_neg h1]
  by_cases h2 : (deltas.length : ℤ) ≠ upper - lower + 1
  · rw [if_pos h2]
  rw [if_neg h2]
  by_cases h3 : (∃ d ∈ deltas, d < 0) ∨ (∃ d ∈ deltas, d > 1)
  · rw [if_pos h3]
  rw [if_neg h3, if_neg (by push Not at h2; omega)]
  have h4 : ∃ x ∈ npDiff deltas, x > 0 := by
    by_contra hc
    push Not at hc
    have := List.pairwise_iff_getElem.1 (npDiff_nonpos hc) i j (by omega) hj hij
    linarith
  simp only [if_pos h4]

variable {b q disc : ℝ}

/-- The delta of sampled Laplace noise at epsilon zero. -/
lemma laplace_delta_zero {m : AdditiveNoise ℝ} (hm : mkLaplace b 1 q .remove = .ok m) (hq : q < 1) :
    ∃ d, m.getDelta 0 = .ok d ∧ q * (1 - Real.exp (-(1 / (2 * b)))) ≤ d := by
  obtain ⟨hf, h1, h2, h3, -, hb⟩ := laplace_faithful hm
  have q0 : 0 < q := by rw [← h2]; exact hf.q0
  have hlog : Real.log (1 - q) < 0 := Real.log_neg (by linarith) (by linarith)
  obtain ⟨d, hd, hi⟩ := Props.C31_laplace_partial hm 0 (.inr fun hc => by
    rcases hc with hc | hc
    · simp only [lossLimit] at hc; linarith
    · simp only [lossLimit, zero_sub, abs_neg, abs_zero, max_eq_right (abs_nonneg (Real.log (1 - q)))] at hc
      have := abs_pos.2 hlog.ne
      nlinarith)
  refine ⟨d, hd, ?_⟩
  have hp := laplace_prob 0 hb
  have hS := hi.1 (Set.Iic (-(1 / 2))) measurableSet_Iic
  simp only [upper, lower] at hS
  rw [mixShift_real' _ q0.le hq.le] at hS
  have e1 : (fun x : ℝ => x + -1) ⁻¹' Set.Iic (-(1 / 2)) = Set.Iic (1 / 2) := by
    ext x; simp only [Set.mem_preimage, Set.mem_Iic]; constructor <;> intro h <;> linarith
  rw [map_measureReal_apply (measurable_add_const _) measurableSet_Iic, e1, laplace_Iic hb (by norm_num), laplace_Iic_nonneg hb (by norm_num), Real.exp_zero] at hS
  have e2 : -(1 / 2) / b = -(1 / (2 * b)) := by field_simp
  rw [e2] at hS
  nlinarith

/-- The delta at a grid point that is taken for the limit. -/
lemma laplace_delta_close {m : AdditiveNoise ℝ} (hm : mkLaplace b 1 q .remove = .ok m) (hq : q < 1) {ε : ℝ}
    (hc : IsClose ε (Real.log (1 - q))) : m.getDelta ε = .ok (1 - Real.exp ε) := by
  have hi : m.invNo ⊥ = ⊤ ∧ m.invNo ⊤ = ⊥ := by
    obtain ⟨-, -, -, -, -, hb⟩ := laplace_faithful hm
    unfold mkLaplace at hm
    rw [if_neg (not_le.2 hb)] at hm
    obtain ⟨-, rfl⟩ := map_checkBase hm
    exact ⟨rfl, rfl⟩
  obtain ⟨hf, h1, h2, h3, -, hb⟩ := laplace_faithful hm
  have hp := hf.prob
  have := (getDelta_close_remove hf (edges_of_inv hf hi) h3 (by rw [h2]; exact hq) (ε := ε) (by simpa only [edge, h3, h2] using hc)).1
  have e : m.noiseCdf (m.invNo ⊥) = 1 := by
    rw [hi.1, hf.cdf, cdfOf_top]
  rw [this, e]
  simp

theorem laplace_close_error (hb : 0 < b) (q0 : 0 < q) (q1 : q < 1) (hd : 0 < disc) {k : ℤ} (hc : IsClose (k * disc) (Real.log (1 - q)))
    (hk : 1 - Real.exp (k * disc) < q * (1 - Real.exp (-(1 / (2 * b))))) :
    fromLaplace 0 b 1 true disc q true = some (.error .valueError) := by
  have hm : ∃ m, mkLaplace b 1 q .remove = .ok m := by
    unfold mkLaplace checkBase
    rw [if_neg (not_le.2 hb), if_neg (by norm_num), if_neg (by push Not; exact ⟨q0, q1.le⟩)]
    exact ⟨_, rfl⟩
  obtain ⟨m, hm⟩ := hm
  obtain ⟨hf, h1, h2, h3, -, -⟩ := laplace_faithful hm
  have hexp : Real.exp (-(1 / b)) < Real.exp (-(1 / (2 * b))) := by
    apply Real.exp_lt_exp.2
    have : 1 / (2 * b) < 1 / b := one_div_lt_one_div_of_lt hb (by linarith)
    linarith
  set l := Real.log (1 - q + q * Real.exp (-(1 / b))) with hl
  set u := Real.log (1 - q + q * Real.exp (1 / b)) with hu
  have hbounds : laplaceBounds b m = .ok (((l : ℝ) : EReal), ((u : ℝ) : EReal)) := by
    unfold laplaceBounds
    simp only [h2, h3, h1, if_neg q1.ne, hl, hu]
  have hk0 : (k : ℝ) * disc < 0 := by
    have : q * (1 - Real.exp (-(1 / (2 * b)))) < q * 1 := mul_lt_mul_of_pos_left (by linarith [Real.exp_pos (-(1 / (2 * b)))]) q0
    rcases hc with hc | hc
    · rw [hc]; exact Real.log_neg (by linarith) (by linarith)
    · by_contra hn
      push Not at hn
      have hlog : Real.log (1 - q) < 0 := Real.log_neg (by linarith) (by linarith)
      rw [abs_of_nonneg (by linarith), abs_of_nonneg hn, abs_of_neg hlog] at hc
      rcases max_cases ((k : ℝ) * disc) (-Real.log (1 - q)) with ⟨h, -⟩ | ⟨h, -⟩ <;> rw [h] at hc <;> nlinarith
  have hkneg : k < 0 := by
    by_contra hn
    push Not at hn
    have : (0 : ℝ) ≤ k := by exact_mod_cast hn
    nlinarith
  have hlk : ⌊l / disc⌋ ≤ k := by
    have : l < k * disc := by
      rw [hl, Real.log_lt_iff_lt_exp (by nlinarith [Real.exp_pos (-(1 / b))])]
      nlinarith
    have h5 : l / disc < k := by rwa [div_lt_iff₀ hd]
    have := Int.floor_le (l / disc)
    exact_mod_cast (this.trans h5.le)
  have hu0 : 0 ≤ ⌈u / disc⌉ := by
    apply Int.ceil_nonneg
    apply div_nonneg _ hd.le
    apply Real.log_nonneg
    have : 1 ≤ Real.exp (1 / b) := Real.one_le_exp (by positivity)
    nlinarith
  obtain ⟨deltas, hdel⟩ := getDeltas_ok (m := m) (disc := disc) (eps := PldCommon.pyRange ⌊l / disc⌋ (⌈u / disc⌉ + 1)) fun j _ => by
    obtain ⟨d, -, hd, -⟩ := Props.C31_laplace_near hm (j * disc)
    exact ⟨d, hd⟩
  obtain ⟨hlen, hspec⟩ := getDeltas_spec hdel
  have hlen' : (PldCommon.pyRange ⌊l / disc⌋ (⌈u / disc⌉ + 1)).length = (⌈u / disc⌉ + 1 - ⌊l / disc⌋).toNat := by
    simp [PldCommon.pyRange]
  have hat : ∀ i : ℕ, ∀ hi : i < deltas.length, m.getDelta (((⌊l / disc⌋ + i : ℤ) : ℝ) * disc) = .ok deltas[i] := by
    intro i hi
    have hi' : i < (PldCommon.pyRange ⌊l / disc⌋ (⌈u / disc⌉ + 1)).length := by rw [hlen]; exact hi
    have hmem : ((PldCommon.pyRange ⌊l / disc⌋ (⌈u / disc⌉ + 1))[i], deltas[i]) ∈
        (PldCommon.pyRange ⌊l / disc⌋ (⌈u / disc⌉ + 1)).zip deltas := by
      rw [List.mem_iff_getElem]
      exact ⟨i, by simp [hi', hi], by simp⟩
    have := hspec _ hmem
    simpa [PldCommon.pyRange] using this
  obtain ⟨i, hi⟩ := Int.eq_ofNat_of_zero_le (show 0 ≤ k - ⌊l / disc⌋ by omega)
  obtain ⟨j, hj⟩ := Int.eq_ofNat_of_zero_le (show 0 ≤ 0 - ⌊l / disc⌋ by omega)
  have hjl : j < deltas.length := by rw [← hlen, hlen']; omega
  have hij : i < j := by omega
  have di := hat i (by omega)
  have dj := hat j hjl
  rw [show ⌊l / disc⌋ + (i : ℤ) = k by omega, laplace_delta_close hm q1 hc] at di
  obtain ⟨d0, e0, g0⟩ := laplace_delta_zero hm q1
  rw [show ⌊l / disc⌋ + (j : ℤ) = 0 by omega, Int.cast_zero, zero_mul, e0] at dj
  have di := Except.ok.inj di
  have dj := Except.ok.inj dj
  have herr := fixedGap_increase (disc := disc) (lower := ⌊l / disc⌋) (upper := ⌈u / disc⌉) hij hjl (by rw [← di, ← dj]; linarith)
  unfold fromLaplace subsampledPld
  simp only [hm, createContinuous, hbounds]
  have hdots : dotsContinuous m (((l : ℝ) : EReal), ((u : ℝ) : EReal)) disc = .error .valueError := by
    unfold dotsContinuous
    change (m.getDeltas ((PldCommon.pyRange ⌊l / disc⌋ (⌈u / disc⌉ + 1)).map fun k : ℤ => (k : ℝ) * disc) >>=
      fun deltas => connectDotsFixedGap disc ⌊l / disc⌋ ⌈u / disc⌉ deltas) = _
    rw [hdel]
    exact herr
  simp [bind, Except.bind, hdots]

end Verif.Mech
