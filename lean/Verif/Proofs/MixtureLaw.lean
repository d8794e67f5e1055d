import Verif.Proofs.MixtureGaussian
import Verif.Proofs.RenyiGauss

/-! # Mixtures of Gaussians: laws, cumulative distribution functions and hockey-stick divergence -/

namespace Verif.Mixture
open Verif Spec Pld MeasureTheory ProbabilityTheory Mech

/-- The noise. -/
noncomputable def base (σ : ℝ) : Measure ℝ := gaussianReal 0 (Real.toNNReal (σ ^ 2))

instance (σ : ℝ) : IsProbabilityMeasure (base σ) := by unfold base; infer_instance

lemma gaussLR_eq {σ : ℝ} (s x : ℝ) : gaussLR s (Real.toNNReal (σ ^ 2)) x = term (σ ^ 2) s x := by
  unfold gaussLR term
  rw [Real.coe_toNNReal _ (sq_nonneg σ)]

lemma measurable_term (v s : ℝ) : Measurable (term v s) := by unfold term; fun_prop

/-- The likelihood ratio of a mixture of Gaussians. -/
noncomputable def lr (σ : ℝ) (cs : List (ℝ × ℝ)) (x : ℝ) : ℝ := (cs.map fun c => c.2 * term (σ ^ 2) c.1 x).sum

lemma lr_nonneg {σ : ℝ} {cs : List (ℝ × ℝ)} (h : ∀ c ∈ cs, 0 ≤ c.2) (x : ℝ) : 0 ≤ lr σ cs x :=
  List.sum_nonneg fun y hy => by
    obtain ⟨c, hc, rfl⟩ := List.mem_map.1 hy
    exact mul_nonneg (h c hc) (term_pos _ _ _).le

lemma measurable_lr (σ : ℝ) (cs : List (ℝ × ℝ)) : Measurable (lr σ cs) := by
  induction cs with
  | nil => exact measurable_const
  | cons c cs ih =>
    have : lr σ (c :: cs) = fun x => c.2 * term (σ ^ 2) c.1 x + lr σ cs x := by ext x; simp [lr]
    rw [this]
    exact ((measurable_term _ _).const_mul _).add ih

lemma toNNReal_ne {σ : ℝ} (hσ : 0 < σ) : Real.toNNReal (σ ^ 2) ≠ 0 := by
  rw [Ne, Real.toNNReal_eq_zero, not_le]; positivity

lemma gaussMixture_withDensity {σ : ℝ} (hσ : 0 < σ) {cs : List (ℝ × ℝ)} (h : ∀ c ∈ cs, 0 ≤ c.2) :
    gaussMixture σ cs = (base σ).withDensity fun x => ENNReal.ofReal (lr σ cs x) := by
  induction cs with
  | nil => simp [gaussMixture, lr]
  | cons c cs ih =>
    have e : gaussMixture σ (c :: cs) = ENNReal.ofReal c.2 • gaussianReal c.1 (Real.toNNReal (σ ^ 2)) + gaussMixture σ cs := by
      simp [gaussMixture]
    rw [e, ih fun c hc => h c (List.mem_cons_of_mem _ hc), gaussian_withDensity c.1 (toNNReal_ne hσ),
      ← withDensity_smul _ (measurable_gaussLR _ _).ennreal_ofReal]
    show (base σ).withDensity _ + _ = _
    rw [← withDensity_add_left (by
      exact ((measurable_gaussLR _ _).ennreal_ofReal.const_mul _))]
    congr 1
    ext x
    simp only [Pi.add_apply, Pi.smul_apply, smul_eq_mul]
    rw [gaussLR_eq, ← ENNReal.ofReal_mul (h c (by simp)), ← ENNReal.ofReal_add (mul_nonneg (h c (by simp)) (term_pos _ _ _).le)
      (lr_nonneg (fun c hc => h c (List.mem_cons_of_mem _ hc)) x)]
    simp [lr]

lemma gaussMixture_prob {σ : ℝ} {cs : List (ℝ × ℝ)} (h : ∀ c ∈ cs, 0 ≤ c.2) (h1 : (cs.map Prod.snd).sum = 1) :
    IsProbabilityMeasure (gaussMixture σ cs) := by
  constructor
  have key : ∀ cs : List (ℝ × ℝ), (∀ c ∈ cs, 0 ≤ c.2) → gaussMixture σ cs Set.univ = ENNReal.ofReal (cs.map Prod.snd).sum := by
    intro cs h
    induction cs with
    | nil => simp [gaussMixture]
    | cons c cs ih =>
      have e : gaussMixture σ (c :: cs) = ENNReal.ofReal c.2 • gaussianReal c.1 (Real.toNNReal (σ ^ 2)) + gaussMixture σ cs := by
        simp [gaussMixture]
      have hc := fun c hc => h c (List.mem_cons_of_mem _ hc)
      rw [e, Measure.add_apply, ih hc, Measure.smul_apply, measure_univ, smul_eq_mul, mul_one, List.map_cons, List.sum_cons,
        ENNReal.ofReal_add (h c (by simp)) (List.sum_nonneg fun x hx => by
          obtain ⟨c, hc', rfl⟩ := List.mem_map.1 hx; exact hc c hc')]
  rw [key cs h, h1, ENNReal.ofReal_one]

/-- Probabilities under a mixture. -/
lemma gaussMixture_real {σ : ℝ} {cs : List (ℝ × ℝ)} (h : ∀ c ∈ cs, 0 ≤ c.2) (S : Set ℝ) :
    (gaussMixture σ cs).real S = (cs.map fun c => c.2 * (gaussianReal c.1 (Real.toNNReal (σ ^ 2))).real S).sum := by
  have key : gaussMixture σ cs S ≠ ⊤ ∧
      (gaussMixture σ cs).real S = (cs.map fun c => c.2 * (gaussianReal c.1 (Real.toNNReal (σ ^ 2))).real S).sum := by
    induction cs with
    | nil => simp [gaussMixture]
    | cons c cs ih =>
      have e : gaussMixture σ (c :: cs) = ENNReal.ofReal c.2 • gaussianReal c.1 (Real.toNNReal (σ ^ 2)) + gaussMixture σ cs := by
        simp [gaussMixture]
      obtain ⟨h1, h2⟩ := ih fun c hc => h c (List.mem_cons_of_mem _ hc)
      have hf : (ENNReal.ofReal c.2 • gaussianReal c.1 (Real.toNNReal (σ ^ 2))) S ≠ ⊤ := by
        rw [Measure.smul_apply, smul_eq_mul]
        exact ENNReal.mul_ne_top ENNReal.ofReal_ne_top (measure_ne_top _ _)
      refine ⟨by rw [e, Measure.add_apply]; exact ENNReal.add_ne_top.2 ⟨hf, h1⟩, ?_⟩
      rw [measureReal_def, e, Measure.add_apply, ENNReal.toReal_add hf h1, ← measureReal_def (gaussMixture σ cs), h2, List.map_cons, List.sum_cons,
        Measure.smul_apply, smul_eq_mul, ENNReal.toReal_mul, ENNReal.toReal_ofReal (h c (by simp)), ← measureReal_def]
  exact key.2

lemma neg_probs {cs : List (ℝ × ℝ)} (h : ∀ c ∈ cs, 0 ≤ c.2) : ∀ c ∈ cs.map (fun c => (-c.1, c.2)), 0 ≤ c.2 := by
  intro c hc
  obtain ⟨d, hd, rfl⟩ := List.mem_map.1 hc
  exact h d hd

namespace Obj
variable {m : Obj}

/-- The set below the cut-off. -/
def below (x : EReal) : Set ℝ := {y | ((y : ℝ) : EReal) ≤ x}

lemma measurableSet_below (x : EReal) : MeasurableSet (below x) := measurable_coe_real_ereal measurableSet_Iic

lemma below_coe (x : ℝ) : below (x : EReal) = Set.Iic x := by ext y; simp [below]

lemma Good.prob (h : m.Good) : ∀ c ∈ m.comps, 0 ≤ c.2 := fun c hc => (h.dist.prob c hc).le

lemma upper_prob (h : m.Good) : IsProbabilityMeasure (mixUpper m.σ m.comps m.adj) := by
  cases m.adj
  · unfold mixUpper; infer_instance
  · refine gaussMixture_prob (neg_probs h.prob) ?_
    rw [List.map_map]
    exact h.dist.sum

lemma lower_prob (h : m.Good) : IsProbabilityMeasure (mixLower m.σ m.comps m.adj) := by
  cases m.adj
  · exact gaussMixture_prob h.prob h.dist.sum
  · unfold mixLower; infer_instance

/-- Densities with respect to the noise. -/
noncomputable def up (m : Obj) (x : ℝ) : ℝ := match m.adj with | .add => 1 | .remove => m.ratio (-x)
@[inherit_doc up]
noncomputable def low (m : Obj) (x : ℝ) : ℝ := match m.adj with | .add => m.ratio x | .remove => 1

lemma measurable_ratio (m : Obj) : Measurable m.ratio := (ratio_continuous m).measurable

lemma measurable_up (m : Obj) : Measurable m.up := by
  unfold up
  cases m.adj
  · exact measurable_const
  · exact (measurable_ratio m).comp measurable_neg

lemma measurable_low (m : Obj) : Measurable m.low := by
  unfold low
  cases m.adj
  · exact measurable_ratio m
  · exact measurable_const

lemma low_pos (h : m.Good) (x : ℝ) : 0 < m.low x := by
  unfold low
  cases m.adj
  · exact ratio_pos h x
  · exact one_pos

lemma up_pos (h : m.Good) (x : ℝ) : 0 < m.up x := by
  unfold up
  cases m.adj
  · exact one_pos
  · exact ratio_pos h _

lemma up_eq (h : m.Good) (x : ℝ) : m.up x = Real.exp (m.privacyLoss x) * m.low x := by
  rw [privacyLoss_eq h]
  unfold up low
  cases m.adj
  · simp only []
    rw [Real.exp_neg, Real.exp_log (ratio_pos h x), inv_mul_cancel₀ (ratio_pos h x).ne']
  · simp only []
    rw [Real.exp_log (ratio_pos h _), mul_one]

lemma one_density (μ : Measure ℝ) : μ = μ.withDensity fun _ => ENNReal.ofReal 1 := by simp

lemma upper_density (h : m.Good) : mixUpper m.σ m.comps m.adj = (base m.σ).withDensity fun x => ENNReal.ofReal (m.up x) := by
  unfold up
  cases m.adj
  · exact one_density _
  · show gaussMixture _ _ = _
    rw [gaussMixture_withDensity h.σ0 (neg_probs h.prob)]
    congr 1
    ext x
    simp only [lr, ratio, List.map_map]
    congr 3
    ext c
    simp only [Function.comp, term]
    congr 3
    ring

lemma lower_density (h : m.Good) : mixLower m.σ m.comps m.adj = (base m.σ).withDensity fun x => ENNReal.ofReal (m.low x) := by
  unfold low
  cases m.adj
  · exact gaussMixture_withDensity h.σ0 h.prob
  · exact one_density _

/-- At the exact cut-off the formula is the hockey-stick divergence. -/
lemma isHs_cutoff (h : m.Good) (x : ℝ) : IsHs (mixUpper m.σ m.comps m.adj) (mixLower m.σ m.comps m.adj) (m.privacyLoss x)
    ((mixUpper m.σ m.comps m.adj).real (Set.Iic x) - Real.exp (m.privacyLoss x) * (mixLower m.σ m.comps m.adj).real (Set.Iic x)) := by
  have f1 := upper_prob h
  have f2 := lower_prob h
  rw [upper_density h] at f1 ⊢
  rw [lower_density h] at f2 ⊢
  refine isHs_of_density (base m.σ) (measurable_up m) (measurable_low m) (fun x => (low_pos h x).le) (m.privacyLoss x)
    measurableSet_Iic ?_ ?_
  · intro y hy
    rw [up_eq h]
    exact mul_le_mul_of_nonneg_right (Real.exp_le_exp.2 ((privacyLoss_strictAnti h).antitone hy)) (low_pos h y).le
  · intro y hy
    rw [up_eq h]
    exact mul_le_mul_of_nonneg_right (Real.exp_le_exp.2 ((privacyLoss_strictAnti h).antitone (not_le.1 hy).le)) (low_pos h y).le

/-! ### The cumulative distribution functions -/

lemma noiseCdf_eq (m : Obj) (x : EReal) : m.noiseCdf x = (base m.σ).real (below x) := rfl

lemma shift_below (σ s : ℝ) (x : EReal) :
    (gaussianReal s (Real.toNNReal (σ ^ 2))).real (below x) = (base σ).real (below (x + ((-s : ℝ) : EReal))) := by
  have : gaussianReal s (Real.toNNReal (σ ^ 2)) = (base σ).map fun y => y + s := by
    unfold base; rw [gaussianReal_map_add_const]; simp
  rw [this, measureReal_def, Measure.map_apply (by fun_prop) (measurableSet_below x), ← measureReal_def]
  congr 1
  ext y
  simp only [below, Set.mem_preimage, Set.mem_ofPred_eq]
  induction x using EReal.rec with
  | bot => simp
  | top => simp
  | coe x =>
    rw [← EReal.coe_add, EReal.coe_le_coe_iff, EReal.coe_le_coe_iff]
    constructor <;> intro h <;> linarith

lemma muUpperCdf_eq (h : m.Good) (x : EReal) : m.muUpperCdf x = (mixUpper m.σ m.comps m.adj).real (below x) := by
  unfold muUpperCdf
  cases m.adj
  · rfl
  · show _ = (gaussMixture _ _).real _
    rw [gaussMixture_real (neg_probs h.prob), List.map_map]
    simp only []
    congr 2
    ext c
    simp only [Function.comp]
    rw [shift_below, neg_neg, mul_comm, noiseCdf_eq]

lemma muLowerCdf_eq (h : m.Good) (x : EReal) : expLog (m.muLowerLogCdf x) = (mixLower m.σ m.comps m.adj).real (below x) := by
  unfold muLowerLogCdf
  cases m.adj
  · show _ = (gaussMixture _ _).real _
    rw [gaussMixture_real h.prob]
    simp only []
    have e : (m.comps.map fun c => c.2 * expLog (m.noiseLogCdf (x + ((-c.1 : ℝ) : EReal)))) =
        m.comps.map fun c => c.2 * (gaussianReal c.1 (Real.toNNReal (m.σ ^ 2))).real (below x) := by
      refine List.map_congr_left fun c _ => ?_
      rw [shift_below, noiseLogCdf, expLog_logOf _ (by rw [noiseCdf_eq]; exact measureReal_nonneg), noiseCdf_eq]
    rw [e, expLog_logOf]
    refine List.sum_nonneg fun y hy => ?_
    obtain ⟨c, hc, rfl⟩ := List.mem_map.1 hy
    exact mul_nonneg (h.prob c hc) measureReal_nonneg
  · show _ = (base m.σ).real _
    simp only []
    rw [noiseLogCdf, expLog_logOf _ (by rw [noiseCdf_eq]; exact measureReal_nonneg), noiseCdf_eq]

lemma cutoffDelta_eq (h : m.Good) (ε : ℝ) (x : EReal) : m.cutoffDelta ε x = (mixUpper m.σ m.comps m.adj).real (below x) -
    Real.exp ε * (mixLower m.σ m.comps m.adj).real (below x) := by
  unfold cutoffDelta
  rw [muUpperCdf_eq h, Mech.expLog_add, muLowerCdf_eq h]

/-- A wrong cut-off only makes the reported delta too small. -/
lemma cutoffDelta_le (h : m.Good) {ε δ : ℝ} (hi : Indist (mixUpper m.σ m.comps m.adj) (mixLower m.σ m.comps m.adj) ε δ) (x : EReal) :
    m.cutoffDelta ε x ≤ δ := by
  rw [cutoffDelta_eq h]
  have := hi (below x) (measurableSet_below x)
  linarith

/-- The largest density of the noise. -/
noncomputable def peak (σ : ℝ) : ℝ := (Real.sqrt (2 * Real.pi * σ ^ 2))⁻¹

lemma base_interval {σ : ℝ} (hσ : 0 < σ) {a b : ℝ} (hab : a ≤ b) (s : ℝ) :
    (gaussianReal s (Real.toNNReal (σ ^ 2))).real (Set.Ioc a b) ≤ peak σ * (b - a) := by
  rw [gaussianReal_of_var_ne_zero _ (toNNReal_ne hσ), measureReal_def, withDensity_apply _ measurableSet_Ioc]
  have k : ∀ x, gaussianPDF s (Real.toNNReal (σ ^ 2)) x ≤ ENNReal.ofReal (peak σ) := by
    intro x
    rw [gaussianPDF, gaussianPDFReal]
    refine ENNReal.ofReal_le_ofReal ?_
    rw [Real.coe_toNNReal _ (sq_nonneg σ)]
    refine mul_le_of_le_one_right (by positivity) (Real.exp_le_one_iff.2 ?_)
    exact div_nonpos_of_nonpos_of_nonneg (neg_nonpos.2 (sq_nonneg _)) (by positivity)
  have : ∫⁻ x in Set.Ioc a b, gaussianPDF s (Real.toNNReal (σ ^ 2)) x ≤ ENNReal.ofReal (peak σ * (b - a)) := by
    calc _ ≤ ∫⁻ _ in Set.Ioc a b, ENNReal.ofReal (peak σ) := lintegral_mono k
      _ = _ := by
        rw [setLIntegral_const, Real.volume_Ioc, ENNReal.ofReal_mul (by unfold peak; positivity)]
  refine ENNReal.toReal_le_of_le_ofReal ?_ this
  exact mul_nonneg (by unfold peak; positivity) (sub_nonneg.2 hab)

lemma mixture_interval {σ : ℝ} (hσ : 0 < σ) {cs : List (ℝ × ℝ)} (h : ∀ c ∈ cs, 0 ≤ c.2) (h1 : (cs.map Prod.snd).sum = 1)
    {a b : ℝ} (hab : a ≤ b) : (gaussMixture σ cs).real (Set.Ioc a b) ≤ peak σ * (b - a) := by
  rw [gaussMixture_real h]
  calc _ ≤ (cs.map fun c => c.2 * (peak σ * (b - a))).sum :=
        sum_le_of fun c hc => mul_le_mul_of_nonneg_left (base_interval hσ hab c.1) (h c hc)
    _ = _ := by rw [List.sum_map_mul_right]; change (cs.map Prod.snd).sum * _ = _; rw [h1, one_mul]

lemma upper_interval (h : m.Good) {a b : ℝ} (hab : a ≤ b) : (mixUpper m.σ m.comps m.adj).real (Set.Ioc a b) ≤ peak m.σ * (b - a) := by
  cases m.adj
  · exact base_interval h.σ0 hab 0
  · refine mixture_interval h.σ0 (neg_probs h.prob) ?_ hab
    rw [List.map_map]; exact h.dist.sum

lemma lower_interval (h : m.Good) {a b : ℝ} (hab : a ≤ b) : (mixLower m.σ m.comps m.adj).real (Set.Ioc a b) ≤ peak m.σ * (b - a) := by
  cases m.adj
  · exact mixture_interval h.σ0 h.prob h.dist.sum hab
  · exact base_interval h.σ0 hab 0

/-- On a set where the loss is between `ε - w` and `ε + w`, the two sides differ by the factor `e^w`. -/
lemma set_bounds (h : m.Good) {S : Set ℝ} (hS : MeasurableSet S) {a b : ℝ} (hl : ∀ x ∈ S, a ≤ m.privacyLoss x ∧ m.privacyLoss x ≤ b) :
    Real.exp a * (mixLower m.σ m.comps m.adj).real S ≤ (mixUpper m.σ m.comps m.adj).real S ∧
    (mixUpper m.σ m.comps m.adj).real S ≤ Real.exp b * (mixLower m.σ m.comps m.adj).real S := by
  have f1 := upper_prob h
  have f2 := lower_prob h
  have k1 : ENNReal.ofReal (Real.exp a) * mixLower m.σ m.comps m.adj S ≤ mixUpper m.σ m.comps m.adj S := by
    rw [upper_density h, lower_density h, withDensity_apply _ hS, withDensity_apply _ hS,
      ← lintegral_const_mul _ (measurable_low m).ennreal_ofReal]
    refine setLIntegral_mono (measurable_up m).ennreal_ofReal fun x hx => ?_
    rw [← ENNReal.ofReal_mul (Real.exp_pos _).le, up_eq h]
    exact ENNReal.ofReal_le_ofReal (mul_le_mul_of_nonneg_right (Real.exp_le_exp.2 (hl x hx).1) (low_pos h x).le)
  have k2 : mixUpper m.σ m.comps m.adj S ≤ ENNReal.ofReal (Real.exp b) * mixLower m.σ m.comps m.adj S := by
    rw [upper_density h, lower_density h, withDensity_apply _ hS, withDensity_apply _ hS,
      ← lintegral_const_mul _ (measurable_low m).ennreal_ofReal]
    refine setLIntegral_mono ((measurable_low m).ennreal_ofReal.const_mul _) fun x hx => ?_
    rw [← ENNReal.ofReal_mul (Real.exp_pos _).le, up_eq h]
    exact ENNReal.ofReal_le_ofReal (mul_le_mul_of_nonneg_right (Real.exp_le_exp.2 (hl x hx).2) (low_pos h x).le)
  constructor
  · have := ENNReal.toReal_mono (measure_ne_top _ _) k1
    rwa [ENNReal.toReal_mul, ENNReal.toReal_ofReal (Real.exp_pos _).le] at this
  · have := ENNReal.toReal_mono (ENNReal.mul_ne_top ENNReal.ofReal_ne_top (measure_ne_top _ _)) k2
    rwa [ENNReal.toReal_mul, ENNReal.toReal_ofReal (Real.exp_pos _).le] at this

/-- The error of a cut-off within `p` of the exact one. -/
noncomputable def slack (m : Obj) (p : ℝ) : ℝ := peak m.σ * p * (Real.exp (m.maxSens * p / m.σ ^ 2) - 1)

/-- A cut-off within `p` of the exact one gives a delta within `slack p`. -/
lemma cutoff_close (h : m.Good) {x z p : ℝ} (hp : |x - z| ≤ p) {δ : ℝ}
    (hi : IsHs (mixUpper m.σ m.comps m.adj) (mixLower m.σ m.comps m.adj) (m.privacyLoss z) δ) :
    δ ≤ m.cutoffDelta (m.privacyLoss z) (x : EReal) + m.slack p := by
  have f1 := upper_prob h
  have f2 := lower_prob h
  have v0 := h.v0
  have hs := maxSens_pos h
  have pk : 0 ≤ peak m.σ := by unfold peak; positivity
  rw [hi.unique (isHs_cutoff h z), cutoffDelta_eq h, below_coe]
  set P := mixUpper m.σ m.comps m.adj
  set Q := mixLower m.σ m.comps m.adj
  have E : ∀ {u : ℝ}, 0 ≤ u → u ≤ p → Real.exp (m.maxSens * u / m.σ ^ 2) ≤ Real.exp (m.maxSens * p / m.σ ^ 2) := fun hu hup =>
    Real.exp_le_exp.2 (div_le_div_of_nonneg_right (mul_le_mul_of_nonneg_left hup hs.le) v0.le)
  rcases le_total x z with hxz | hxz
  · -- the part between `x` and `z` is missing
    have hu : z - x ≤ p := by rw [abs_sub_comm, abs_of_nonneg (by linarith)] at hp; exact hp
    have e1 : ∀ μ : Measure ℝ, [IsProbabilityMeasure μ] → μ.real (Set.Iic z) = μ.real (Set.Iic x) + μ.real (Set.Ioc x z) := fun μ _ => by
      rw [← Set.Iic_union_Ioc_eq_Iic hxz, measureReal_union (by
        rw [Set.disjoint_left]; intro y h1 h2; exact absurd h1 (not_le.2 h2.1)) measurableSet_Ioc]
    rw [e1 P, e1 Q]
    have sb := set_bounds h (S := Set.Ioc x z) measurableSet_Ioc (a := m.privacyLoss z) (b := m.privacyLoss z + m.maxSens * (z - x) / m.σ ^ 2)
      fun y hy => ⟨(privacyLoss_strictAnti h).antitone hy.2, (privacyLoss_lipschitz h hy.2).trans (by
        have := div_le_div_of_nonneg_right (mul_le_mul_of_nonneg_left (by linarith [hy.1] : z - y ≤ z - x) hs.le) v0.le
        linarith)⟩
    -- `P ≤ e^w e^ε Q`, so `P - e^ε Q ≤ P (1 - e^-w) ≤ P (e^w - 1)`
    set w := m.maxSens * (z - x) / m.σ ^ 2 with hw
    have hP := upper_interval h hxz
    have w1 : 1 ≤ Real.exp w := Real.one_le_exp (by rw [hw]; exact div_nonneg (mul_nonneg hs.le (by linarith)) v0.le)
    have hle : Real.exp w - 1 ≤ Real.exp (m.maxSens * p / m.σ ^ 2) - 1 := by linarith [E (by linarith : 0 ≤ z - x) hu]
    rw [Real.exp_add] at sb
    have hPn : 0 ≤ P.real (Set.Ioc x z) := measureReal_nonneg
    have key : P.real (Set.Ioc x z) - Real.exp (m.privacyLoss z) * Q.real (Set.Ioc x z) ≤ P.real (Set.Ioc x z) * (Real.exp w - 1) := by
      have hq : 0 ≤ Real.exp (m.privacyLoss z) * Q.real (Set.Ioc x z) := mul_nonneg (Real.exp_pos _).le measureReal_nonneg
      have := sb.1
      have := sb.2
      nlinarith
    have k2 : P.real (Set.Ioc x z) * (Real.exp w - 1) ≤ (peak m.σ * p) * (Real.exp (m.maxSens * p / m.σ ^ 2) - 1) :=
      mul_le_mul (hP.trans (mul_le_mul_of_nonneg_left hu pk)) hle (by linarith)
        (mul_nonneg pk (by linarith))
    unfold slack
    linarith
  · have hu : x - z ≤ p := by rw [abs_of_nonneg (by linarith)] at hp; exact hp
    have e1 : ∀ μ : Measure ℝ, [IsProbabilityMeasure μ] → μ.real (Set.Iic x) = μ.real (Set.Iic z) + μ.real (Set.Ioc z x) := fun μ _ => by
      rw [← Set.Iic_union_Ioc_eq_Iic hxz, measureReal_union (by
        rw [Set.disjoint_left]; intro y h1 h2; exact absurd h1 (not_le.2 h2.1)) measurableSet_Ioc]
    rw [e1 P, e1 Q]
    have sb := set_bounds h (S := Set.Ioc z x) measurableSet_Ioc (a := m.privacyLoss z - m.maxSens * (x - z) / m.σ ^ 2) (b := m.privacyLoss z)
      fun y hy => ⟨by
        have h1 := privacyLoss_lipschitz h hy.1.le
        have := div_le_div_of_nonneg_right (mul_le_mul_of_nonneg_left (by linarith [hy.2] : y - z ≤ x - z) hs.le) v0.le
        linarith, (privacyLoss_strictAnti h).antitone hy.1.le⟩
    set w := m.maxSens * (x - z) / m.σ ^ 2 with hw
    have hP := upper_interval h hxz
    have w1 : 1 ≤ Real.exp w := Real.one_le_exp (by rw [hw]; exact div_nonneg (mul_nonneg hs.le (by linarith)) v0.le)
    have hle : Real.exp w - 1 ≤ Real.exp (m.maxSens * p / m.σ ^ 2) - 1 := by linarith [E (by linarith : 0 ≤ x - z) hu]
    rw [sub_eq_add_neg, Real.exp_add, Real.exp_neg] at sb
    have hPn : 0 ≤ P.real (Set.Ioc z x) := measureReal_nonneg
    have key : Real.exp (m.privacyLoss z) * Q.real (Set.Ioc z x) - P.real (Set.Ioc z x) ≤ P.real (Set.Ioc z x) * (Real.exp w - 1) := by
      have h1 := mul_le_mul_of_nonneg_right sb.1 (Real.exp_pos w).le
      have : Real.exp (m.privacyLoss z) * (Real.exp w)⁻¹ * Q.real (Set.Ioc z x) * Real.exp w = Real.exp (m.privacyLoss z) * Q.real (Set.Ioc z x) := by
        field_simp
      linarith
    have k2 : P.real (Set.Ioc z x) * (Real.exp w - 1) ≤ (peak m.σ * p) * (Real.exp (m.maxSens * p / m.σ ^ 2) - 1) :=
      mul_le_mul (hP.trans (mul_le_mul_of_nonneg_left hu pk)) hle (by linarith)
        (mul_nonneg pk (by linarith))
    unfold slack
    linarith

end Obj
end Verif.Mixture
