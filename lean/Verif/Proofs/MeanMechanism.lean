import Verif.Spec.MeanMechanism
import Verif.Proofs.ClassicalGaussian
import Verif.Proofs.LaplaceLaw
import Verif.Proofs.Svt

/-!
# Lemmas about the mean mechanism
-/

namespace Verif.MeanMech
open MeasureTheory ProbabilityTheory Verif.Spec Verif.Svt

instance meanNoise_prob (d : ℝ) : IsProbabilityMeasure (meanNoise d) := by
  unfold meanNoise
  split_ifs
  · exact laplace_prob 0 one_pos
  · infer_instance

lemma budgetScale_pos (c : MeanConfig) : 0 < budgetScale c := by
  unfold budgetScale
  split_ifs <;> norm_num

lemma measurable_sample (c : MeanConfig) (data : List ℝ) : Measurable fun d : ℝ × ℝ => sample c data d.1 d.2 := by
  unfold sample getCounts
  cases c.noisedMean <;> cases c.noisedScale <;> simp only [if_true, if_false, Bool.false_eq_true] <;> fun_prop

lemma call_eq {c : MeanConfig} (h : 0 < c.epsilon) (data : List ℝ) (n : ℕ) (draws : Fin n → ℝ × ℝ) :
    call c data n draws = .ok fun s => sample c data (draws s).1 (draws s).2 := by
  unfold call
  rw [if_neg h.ne', if_neg (not_lt.2 (by have := budgetScale_pos c; positivity))]

lemma meanProb_eq {c : MeanConfig} (h : 0 < c.epsilon) (data : List ℝ) {n : ℕ} (s : Fin n) {S : Set ℝ} (hS : MeasurableSet S) :
    meanProb c data n s S = ((laplace 0 1).prod (meanNoise c.delta)).real ((fun d : ℝ × ℝ => sample c data d.1 d.2) ⁻¹' S) := by
  have hpl := laplace_prob 0 one_pos
  have hm := measurable_sample c data hS
  have hp := measurePreserving_eval (fun _ : Fin n => (laplace 0 1).prod (meanNoise c.delta)) s
  unfold meanProb
  rw [measureReal_def, measureReal_def, ← hp.measure_preimage hm.nullMeasurableSet]
  congr 2
  ext draws
  simp only [call_eq h]
  constructor
  · rintro ⟨out, h1, h2⟩
    injection h1 with h1
    rw [← h1] at h2
    exact h2
  · intro h
    exact ⟨_, rfl, h⟩

/-- Two steps: the first draw is moved by `h`, then the second one, unless the first one is in `B`. -/
lemma two_steps {ν : Measure ℝ} [IsProbabilityMeasure ν] {f f' : ℝ × ℝ → ℝ} (hf : Measurable f) (hf' : Measurable f') {h e d : ℝ} (hd : 0 ≤ d)
    {B S : Set ℝ} (hB : MeasurableSet B) (hS : MeasurableSet S)
    (hstep : ∀ u ∉ B, ν {v | f' (u, v) ∈ S} ≤ ENNReal.ofReal (Real.exp e) * ν {v | f (u + h, v) ∈ S} + ENNReal.ofReal d) :
    ((laplace 0 1).prod ν).real (f' ⁻¹' S) ≤ Real.exp (|h| + e) * ((laplace 0 1).prod ν).real (f ⁻¹' S) + (d + (laplace 0 1).real B) := by
  have hpl := laplace_prob 0 one_pos
  have hG : Measurable fun u => ν {v | f (u, v) ∈ S} := measurable_measure_prodMk_left (hf hS)
  have h1 : ((laplace 0 1).prod ν) (f' ⁻¹' S) ≤ ENNReal.ofReal (Real.exp (|h| + e)) * ((laplace 0 1).prod ν) (f ⁻¹' S) +
      (ENNReal.ofReal d + laplace 0 1 B) := by
    rw [Measure.prod_apply (hf' hS), Measure.prod_apply (hf hS)]
    calc ∫⁻ u, ν (Prod.mk u ⁻¹' (f' ⁻¹' S)) ∂laplace 0 1
        ≤ ∫⁻ u, (ENNReal.ofReal (Real.exp e) * ν {v | f (u + h, v) ∈ S} + (ENNReal.ofReal d + B.indicator 1 u)) ∂laplace 0 1 := by
          refine lintegral_mono fun u => ?_
          by_cases hu : u ∈ B
          · rw [Set.indicator_of_mem hu, Pi.one_apply]
            exact prob_le_one.trans (le_add_left (le_add_left le_rfl))
          · rw [Set.indicator_of_notMem hu, add_zero]
            exact hstep u hu
      _ = ENNReal.ofReal (Real.exp e) * ∫⁻ u, ν {v | f (u + h, v) ∈ S} ∂laplace 0 1 + (ENNReal.ofReal d + laplace 0 1 B) := by
          have hI : Measurable fun u => ENNReal.ofReal d + B.indicator (1 : ℝ → ENNReal) u :=
            (measurable_one.indicator hB).const_add _
          have hGh : Measurable fun u => ν {v | f (u + h, v) ∈ S} := hG.comp (measurable_id.add_const h)
          rw [lintegral_add_right _ hI,
            lintegral_const_mul _ hGh, lintegral_add_left measurable_const, lintegral_const,
            measure_univ, mul_one, lintegral_indicator_one hB]
      _ ≤ ENNReal.ofReal (Real.exp (|h| + e)) * ∫⁻ u, ν {v | f (u, v) ∈ S} ∂laplace 0 1 + (ENNReal.ofReal d + laplace 0 1 B) := by
          refine add_le_add_left ?_ _
          have h2 : ∫⁻ u, ν {v | f (u + h, v) ∈ S} ∂laplace 0 1 = ∫⁻ u, ν {v | f (u, v) ∈ S} ∂((laplace 0 1).map fun x => x + h) := by
            rw [lintegral_map hG (by fun_prop)]
          have h3 : ∫⁻ u, ν {v | f (u, v) ∈ S} ∂((laplace 0 1).map fun x => x + h) ≤
              ENNReal.ofReal (Real.exp |h|) * ∫⁻ u, ν {v | f (u, v) ∈ S} ∂laplace 0 1 := by
            rw [← smul_eq_mul, ← lintegral_smul_measure]
            exact lintegral_mono' (laplace_map_le h) le_rfl
          rw [h2, add_comm |h| e, Real.exp_add, ENNReal.ofReal_mul (Real.exp_pos _).le, mul_assoc]
          exact mul_le_mul_right h3 _
  have h2 := ENNReal.toReal_mono (by
    refine ENNReal.add_ne_top.2 ⟨ENNReal.mul_ne_top ENNReal.ofReal_ne_top (measure_ne_top _ _), ENNReal.add_ne_top.2 ⟨ENNReal.ofReal_ne_top, measure_ne_top _ _⟩⟩) h1
  rw [ENNReal.toReal_add (ENNReal.mul_ne_top ENNReal.ofReal_ne_top (measure_ne_top _ _)) (ENNReal.add_ne_top.2 ⟨ENNReal.ofReal_ne_top, measure_ne_top _ _⟩),
    ENNReal.toReal_add ENNReal.ofReal_ne_top (measure_ne_top _ _), ENNReal.toReal_mul, ENNReal.toReal_ofReal (Real.exp_pos _).le,
    ENNReal.toReal_ofReal hd] at h2
  exact h2

/-- The sum of the clipped records. -/
noncomputable def clipSum (c : MeanConfig) (data : List ℝ) : ℝ := (data.map fun x => min (max x c.minValue) c.maxValue).sum

/-- The released number in terms of the noisy count `k`, when both uses of the count are noised. -/
noncomputable def release (c : MeanConfig) (sum k v : ℝ) : ℝ :=
  sum / k + max zeroTolerance (noiseFactor c * |c.maxValue - c.minValue| / 0.5 / c.epsilon / k) * v

lemma sample_noised {c : MeanConfig} (h1 : c.noisedMean = true) (h2 : c.noisedScale = true) (data : List ℝ) (u v : ℝ) :
    sample c data u v = release c (clipSum c data) (data.length + 2 / c.epsilon * u) v := by
  have hb : budgetScale c = 0.5 := by unfold budgetScale; rw [h1]; rfl
  unfold sample getCounts release clipSum
  simp only [h1, h2, if_true, hb, List.length_map]
  norm_num

lemma sample_exact {c : MeanConfig} (h1 : c.noisedMean = false) (h2 : c.noisedScale = false) (data : List ℝ) (u v : ℝ) :
    sample c data u v = clipSum c data / data.length +
      max zeroTolerance (noiseFactor c * |c.maxValue - c.minValue| / c.epsilon / data.length) * v := by
  have hb : budgetScale c = 1 := by unfold budgetScale; rw [h1, h2]; norm_num
  unfold sample getCounts clipSum
  simp only [h1, h2, if_false, Bool.false_eq_true, hb, List.length_map, div_one]

/-- The noise of the mean hides a change of its argument by `w`. -/
def Hides (c : MeanConfig) : Prop :=
  ∀ w, |w| * noiseFactor c ≤ c.epsilon / 2 → Indist ((meanNoise c.delta).map fun x => x + w) (meanNoise c.delta) (c.epsilon / 2) c.delta

lemma hides_laplace {c : MeanConfig} (hd : c.delta = 0) : Hides c := by
  intro w hw S hS
  have hpl := laplace_prob 0 one_pos
  unfold noiseFactor at hw
  rw [if_pos hd] at hw
  unfold meanNoise
  rw [if_pos hd, hd, add_zero]
  have h1 := (laplace_map_le w) S
  rw [Measure.smul_apply, smul_eq_mul] at h1
  have h2 := ENNReal.toReal_mono (ENNReal.mul_ne_top ENNReal.ofReal_ne_top (measure_ne_top _ _)) h1
  rw [ENNReal.toReal_mul, ENNReal.toReal_ofReal (Real.exp_pos _).le] at h2
  refine h2.trans (mul_le_mul_of_nonneg_right (Real.exp_le_exp.2 ?_) ENNReal.toReal_nonneg)
  norm_num at hw
  linarith

lemma hides_gaussian {c : MeanConfig} (he : 0 < c.epsilon) (he2 : c.epsilon ≤ 2) (hd : 0 < c.delta) (hd1 : c.delta < 1) : Hides c := by
  intro w hw
  unfold noiseFactor at hw
  rw [if_neg hd.ne', show (2.0 : ℝ) = 2 by norm_num] at hw
  unfold meanNoise
  rw [if_neg hd.ne', ClassicalGaussian.shift]
  exact ClassicalGaussian.indist (by linarith) (by linarith) hd hd1 hw

lemma noiseFactor_pos {c : MeanConfig} (hd : 0 ≤ c.delta) (hd1 : c.delta < 1) : 0 < noiseFactor c := by
  unfold noiseFactor
  split_ifs with h
  · norm_num
  · have h0 : 0 < c.delta := lt_of_le_of_ne hd (Ne.symm h)
    refine Real.sqrt_pos.2 (mul_pos (by norm_num) (Real.log_pos ?_))
    rw [lt_div_iff₀ h0]
    norm_num
    linarith

/-- With a positive noisy count, the release hides a change of the sum by the width of the range. -/
lemma release_le {c : MeanConfig} (hc : Hides c) (he : 0 < c.epsilon) (hF : 0 < noiseFactor c) (hd : 0 ≤ c.delta) {a b k : ℝ} (hk : 0 < k)
    (hab : |a - b| ≤ |c.maxValue - c.minValue|) {S : Set ℝ} (hS : MeasurableSet S) :
    meanNoise c.delta {v | release c a k v ∈ S} ≤ ENNReal.ofReal (Real.exp (c.epsilon / 2)) * meanNoise c.delta {v | release c b k v ∈ S} +
      ENNReal.ofReal c.delta := by
  set σ := max zeroTolerance (noiseFactor c * |c.maxValue - c.minValue| / 0.5 / c.epsilon / k) with hσ
  have hσ0 : 0 < σ := lt_of_lt_of_le (by unfold zeroTolerance; norm_num) (le_max_left _ _)
  have hσ1 : noiseFactor c * |c.maxValue - c.minValue| / 0.5 / c.epsilon / k ≤ σ := le_max_right _ _
  have hshift : ∀ v, release c a k v = release c b k (v + (a - b) / (k * σ)) := by
    intro v
    unfold release
    rw [← hσ]
    field_simp
    ring
  have hw : |(a - b) / (k * σ)| * noiseFactor c ≤ c.epsilon / 2 := by
    rw [abs_div, abs_of_pos (mul_pos hk hσ0), div_mul_eq_mul_div, div_le_iff₀ (mul_pos hk hσ0)]
    rw [div_div, div_div, div_le_iff₀ (by positivity)] at hσ1
    have h1 : noiseFactor c * |a - b| ≤ noiseFactor c * |c.maxValue - c.minValue| := mul_le_mul_of_nonneg_left hab hF.le
    norm_num at hσ1
    nlinarith
  have hm : MeasurableSet {v | release c b k v ∈ S} := by
    have : Measurable (release c b k) := by unfold release; fun_prop
    exact this hS
  have h1 := hc _ hw _ hm
  rw [map_measureReal_apply (by fun_prop) hm] at h1
  have h2 : {v | release c a k v ∈ S} = (fun x => x + (a - b) / (k * σ)) ⁻¹' {v | release c b k v ∈ S} := by
    ext v
    simp only [Set.mem_preimage, Set.mem_ofPred_eq, hshift]
  rw [h2]
  rw [← ENNReal.ofReal_toReal (measure_ne_top (meanNoise c.delta) ((fun x => x + (a - b) / (k * σ)) ⁻¹' {v | release c b k v ∈ S})),
    ← ENNReal.ofReal_toReal (measure_ne_top (meanNoise c.delta) {v | release c b k v ∈ S}), ← ENNReal.ofReal_mul (Real.exp_pos _).le,
    ← ENNReal.ofReal_add (by positivity) hd]
  exact ENNReal.ofReal_le_ofReal h1

/-- Two data sets whose sizes differ by `m` and whose clipped sums differ by at most the width of the range. -/
lemma close_le {c : MeanConfig} (h1 : c.noisedMean = true) (h2 : c.noisedScale = true) (hc : Hides c) (he : 0 < c.epsilon) (hd : 0 ≤ c.delta)
    (hd1 : c.delta < 1) {data data' : List ℝ} {m : ℝ} (hlen : |(data.length : ℝ) - data'.length| ≤ m)
    (hsum : |clipSum c data - clipSum c data'| ≤ |c.maxValue - c.minValue|) {n : ℕ} (s : Fin n) {S : Set ℝ} (hS : MeasurableSet S) :
    meanProb c data n s S ≤ Real.exp ((m + 1) / 2 * c.epsilon) * meanProb c data' n s S +
      (c.delta + 0.5 * Real.exp (-(c.epsilon * data.length / 2))) := by
  have hpl := laplace_prob 0 one_pos
  rw [meanProb_eq he data s hS, meanProb_eq he data' s hS]
  have hbad : (laplace 0 1).real (Set.Iic (-(c.epsilon * data.length / 2))) = 0.5 * Real.exp (-(c.epsilon * data.length / 2)) := by
    rw [Mech.laplace_Iic one_pos (by
      have : (0 : ℝ) ≤ c.epsilon * data.length / 2 := by positivity
      linarith), div_one]
  rw [← hbad]
  have h := two_steps (ν := meanNoise c.delta) (measurable_sample c data') (measurable_sample c data)
    (h := c.epsilon / 2 * ((data.length : ℝ) - data'.length)) (e := c.epsilon / 2) hd (B := Set.Iic (-(c.epsilon * data.length / 2)))
    measurableSet_Iic hS (by
      intro u hu
      have hu' : -(c.epsilon * data.length / 2) < u := not_le.1 hu
      have hk : 0 < (data.length : ℝ) + 2 / c.epsilon * u := by
        have : 2 / c.epsilon * (-(c.epsilon * data.length / 2)) < 2 / c.epsilon * u := mul_lt_mul_of_pos_left hu' (by positivity)
        have h3 : 2 / c.epsilon * (-(c.epsilon * data.length / 2)) = -(data.length : ℝ) := by field_simp
        linarith
      have hk' : (data'.length : ℝ) + 2 / c.epsilon * (u + c.epsilon / 2 * ((data.length : ℝ) - data'.length)) =
          data.length + 2 / c.epsilon * u := by field_simp; ring
      simp only [sample_noised h1 h2, hk']
      exact release_le hc he (noiseFactor_pos hd hd1) hd hk hsum hS)
  refine h.trans (add_le_add_left (mul_le_mul_of_nonneg_right (Real.exp_le_exp.2 ?_) measureReal_nonneg) _)
  rw [abs_mul, abs_of_pos (by linarith : 0 < c.epsilon / 2)]
  nlinarith

lemma clipSum_insert (c : MeanConfig) (l r : List ℝ) (x : ℝ) :
    clipSum c (l ++ x :: r) = clipSum c (l ++ r) + min (max x c.minValue) c.maxValue := by
  unfold clipSum
  simp only [List.map_append, List.map_cons, List.sum_append, List.sum_cons]
  ring

lemma clip_abs {lo hi : ℝ} (hlo : lo ≤ 0) (hhi : 0 ≤ hi) (x : ℝ) : |min (max x lo) hi| ≤ |hi - lo| := by
  rw [abs_of_nonneg (by linarith : 0 ≤ hi - lo), abs_le]
  constructor
  · have : lo ≤ min (max x lo) hi := le_min (le_max_right _ _) (by linarith)
    linarith
  · have : min (max x lo) hi ≤ hi := min_le_right _ _
    linarith

lemma clip_sub {lo hi : ℝ} (h : lo ≤ hi) (x y : ℝ) : |min (max x lo) hi - min (max y lo) hi| ≤ |hi - lo| := by
  have h1 : lo ≤ min (max x lo) hi := le_min (le_max_right _ _) h
  have h2 : min (max x lo) hi ≤ hi := min_le_right _ _
  have h3 : lo ≤ min (max y lo) hi := le_min (le_max_right _ _) h
  have h4 : min (max y lo) hi ≤ hi := min_le_right _ _
  rw [abs_of_nonneg (by linarith : 0 ≤ hi - lo), abs_le]
  constructor <;> linarith

/-! ### Bounds by sets of draws -/

lemma prod_fst {μ ν : Measure ℝ} [IsProbabilityMeasure μ] [IsProbabilityMeasure ν] (A : Set ℝ) :
    (μ.prod ν).real {d | d.1 ∈ A} = μ.real A := by
  have : {d : ℝ × ℝ | d.1 ∈ A} = A ×ˢ Set.univ := by ext d; simp
  rw [this, measureReal_prod_prod, probReal_univ, mul_one]

lemma prod_snd {μ ν : Measure ℝ} [IsProbabilityMeasure μ] [IsProbabilityMeasure ν] (A : Set ℝ) :
    (μ.prod ν).real {d | d.2 ∈ A} = ν.real A := by
  have : {d : ℝ × ℝ | d.2 ∈ A} = Set.univ ×ˢ A := by ext d; simp
  rw [this, measureReal_prod_prod, probReal_univ, one_mul]

lemma laplace_Ioi {x : ℝ} (hx : 0 ≤ x) : (laplace 0 1).real (Set.Ioi x) = 0.5 * Real.exp (-x) := by
  have hpl := laplace_prob 0 one_pos
  have h := Mech.laplace_Iic_nonneg one_pos hx
  have h2 := probReal_compl_eq_one_sub (μ := laplace 0 1) (measurableSet_Iic (a := x))
  rw [Set.compl_Iic, h, div_one] at h2
  linarith

lemma laplace_Icc_le {a b : ℝ} (hab : a ≤ b) : (laplace 0 1).real (Set.Icc a b) ≤ (b - a) / 2 := by
  have h : laplace 0 1 (Set.Icc a b) ≤ ENNReal.ofReal ((b - a) / 2) := by
    unfold laplace
    rw [withDensity_apply _ measurableSet_Icc]
    calc ∫⁻ x in Set.Icc a b, ENNReal.ofReal (0.5 / 1 * Real.exp (-|x - 0| / 1)) ≤ ∫⁻ x in Set.Icc a b, ENNReal.ofReal (1 / 2) := by
          refine lintegral_mono fun x => ENNReal.ofReal_le_ofReal ?_
          have : Real.exp (-|x - 0| / 1) ≤ 1 := by
            rw [Real.exp_le_one_iff]
            have := abs_nonneg (x - 0)
            linarith
          norm_num at this ⊢
      _ = ENNReal.ofReal ((b - a) / 2) := by
          rw [setLIntegral_const, Real.volume_Icc, ← ENNReal.ofReal_mul (by norm_num)]
          congr 1
          ring
  have h2 := ENNReal.toReal_mono ENNReal.ofReal_ne_top h
  rwa [ENNReal.toReal_ofReal (by linarith)] at h2

end Verif.MeanMech
