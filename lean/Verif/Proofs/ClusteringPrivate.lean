import Verif.Proofs.ClusteringMech
import Verif.Proofs.DiscreteLaplaceLaw

/-! # Proofs: privacy of the coreset -/

namespace Verif.Clustering
open MeasureTheory ProbabilityTheory Verif.Spec Verif.Advanced Verif.Pld

variable {d : ℕ}

lemma coresetLaw_eq (ν : Measure (ℕ → Point d)) [IsProbabilityMeasure ν] (σ : ℝ) {a : ℝ} (ha : 0 < a) (k : ℤ) (radius : ℝ) (depth : ℤ)
    (tree : Option TreeParam) (hk : tree = none → k ≠ 0) (ht : ∀ t ∈ tree, TreeOk t) (hd : ∀ t ∈ tree, t.maxDepth = depth)
    (h0 : 0 ≤ depth) (pts : List (Point d)) (hp : pts ≠ []) :
    coresetLaw ν σ a k radius depth tree pts =
      ((ν.prod ((Measure.pi fun _ : prefixes depth.toNat => discreteLaplace a).prod
          (Measure.pi fun _ : prefixes depth.toNat => stdGaussian (Point d)))).map
        (fun w => outOf (treeOf σ radius k d depth tree) radius (noisyData σ (pts.map fun x => clipScale radius x • x) w))).map Except.ok := by
  have := Verif.Mech.discreteLaplace_prob ha
  have hr : ν.prod ((Measure.pi fun _ : prefixes depth.toNat => discreteLaplace a).prod
          (Measure.pi fun _ : prefixes depth.toNat => stdGaussian (Point d))) =
      (ν.prod (noiseLaw d a)).map (restrictDraws depth.toNat) := by
    have e : restrictDraws (d := d) depth.toNat = Prod.map id (Prod.map (prefixes depth.toNat).restrict (prefixes depth.toNat).restrict) := rfl
    have m1 := Finset.measurable_restrict (X := fun _ : List Bool => ℤ) (prefixes depth.toNat)
    have m2 := Finset.measurable_restrict (X := fun _ : List Bool => Point d) (prefixes depth.toNat)
    rw [e]
    unfold noiseLaw
    rw [← Measure.map_prod_map _ _ measurable_id (m1.prodMap m2), ← Measure.map_prod_map _ _ m1 m2,
      Measure.infinitePi_map_restrict, Measure.infinitePi_map_restrict, Measure.map_id]
  have hm : Measurable (restrictDraws (d := d) depth.toNat) := by
    unfold restrictDraws
    have m1 := Finset.measurable_restrict (X := fun _ : List Bool => ℤ) (prefixes depth.toNat)
    have m2 := Finset.measurable_restrict (X := fun _ : List Bool => Point d) (prefixes depth.toNat)
    fun_prop
  have hF : Measurable fun w => outOf (treeOf σ radius k d depth tree) radius
      (noisyData (D := depth.toNat) σ (pts.map fun x => clipScale radius x • x) w) := (measurable_outOf _ _).comp (measurable_noisyData _ _)
  rw [hr, Measure.map_map hF hm, Measure.map_map measurable_ok (hF.comp hm)]
  unfold coresetLaw
  congr 1
  funext w
  exact privateCoreset_eq σ a k radius depth tree hk ht hd h0 pts hp w

lemma coresetLaw_prob (ν : Measure (ℕ → Point d)) [IsProbabilityMeasure ν] (σ : ℝ) {a : ℝ} (ha : 0 < a) (k : ℤ) (radius : ℝ) (depth : ℤ)
    (tree : Option TreeParam) (hk : tree = none → k ≠ 0) (ht : ∀ t ∈ tree, TreeOk t) (hd : ∀ t ∈ tree, t.maxDepth = depth)
    (h0 : 0 ≤ depth) (pts : List (Point d)) (hp : pts ≠ []) : IsProbabilityMeasure (coresetLaw ν σ a k radius depth tree pts) := by
  have := Verif.Mech.discreteLaplace_prob ha
  rw [coresetLaw_eq ν σ ha k radius depth tree hk ht hd h0 pts hp]
  have hF : Measurable fun w => outOf (treeOf σ radius k d depth tree) radius
      (noisyData (D := depth.toNat) σ (pts.map fun x => clipScale radius x • x) w) := (measurable_outOf _ _).comp (measurable_noisyData _ _)
  have := Measure.isProbabilityMeasure_map (μ := ν.prod ((Measure.pi fun _ : prefixes depth.toNat => discreteLaplace a).prod
          (Measure.pi fun _ : prefixes depth.toNat => stdGaussian (Point d)))) hF.aemeasurable
  exact Measure.isProbabilityMeasure_map measurable_ok.aemeasurable

lemma measurableSet_isOk {ε α : Type*} [MeasurableSpace α] : MeasurableSet {o : Except ε α | ∃ c, o = .ok c} := by
  refine MeasurableSpace.measurableSet_inf.2 ⟨trivial, ?_⟩
  show MeasurableSet (Except.ok ⁻¹' _)
  simp

lemma clip_norm {radius : ℝ} (hr : 0 < radius) (x : Point d) : ‖clipScale radius x • x‖ ≤ radius := by
  unfold clipScale
  have hm : 0 < max ‖x‖ radius := lt_max_of_lt_right hr
  rw [norm_smul, Real.norm_eq_abs, abs_of_nonneg (by positivity), div_mul_eq_mul_div, div_le_iff₀ hm]
  exact mul_le_mul_of_nonneg_left (le_max_left _ _) hr.le

/-- The law that covers the coreset. -/
noncomputable def coresetLoss (σ a radius : ℝ) (depth : ℤ) : LossLaw :=
  ((ddpLaw a 0 le_rfl zero_le_one).pow (depth.toNat + 1)).conv (gaussLaw (σ / radius))

lemma coreset_dominates (ν : Measure (ℕ → Point d)) [IsProbabilityMeasure ν] {σ a : ℝ} (hσ : 0 < σ) (ha : 0 < a) (k : ℤ) {radius : ℝ}
    (hr : 0 < radius) (depth : ℤ) (tree : Option TreeParam) (hk : tree = none → k ≠ 0) (ht : ∀ t ∈ tree, TreeOk t)
    (hd : ∀ t ∈ tree, t.maxDepth = depth) (h0 : 0 ≤ depth) (l₁ l₂ : List (Point d)) (x : Point d) (hp : l₁ ++ l₂ ≠ []) :
    (coresetLoss σ a radius depth).Dominates (coresetLaw ν σ a k radius depth tree (l₁ ++ x :: l₂)) (coresetLaw ν σ a k radius depth tree (l₁ ++ l₂)) ∧
    (coresetLoss σ a radius depth).Dominates (coresetLaw ν σ a k radius depth tree (l₁ ++ l₂)) (coresetLaw ν σ a k radius depth tree (l₁ ++ x :: l₂)) := by
  classical
  have := Verif.Mech.discreteLaplace_prob ha
  rw [coresetLaw_eq ν σ ha k radius depth tree hk ht hd h0 _ hp, coresetLaw_eq ν σ ha k radius depth tree hk ht hd h0 (l₁ ++ x :: l₂) (by simp)]
  simp only [List.map_append, List.map_cons]
  set c : Point d → Point d := fun x => clipScale radius x • x with hc
  have hF : ∀ l : List (Point d), Measurable fun w => outOf (treeOf σ radius k d depth tree) radius
      (noisyData (D := depth.toNat) σ l w) := fun l => (measurable_outOf _ _).comp (measurable_noisyData _ _)
  have hz : 0 < σ / radius := div_pos hσ hr
  have hg : ∀ u u' : Vec d, ‖u - u'‖ ≤ radius → (gaussLaw (σ / radius)).Dominates (gaussianVec u σ) (gaussianVec u' σ) := by
    intro u u' h
    have e : σ = σ / radius * radius := by field_simp
    have := Verif.Mech.gaussLaw_lawFor hz (Vec d) (gaussianVec u (σ / radius * radius)) (gaussianVec u' (σ / radius * radius))
      (GaussianPair.mk u u' radius hr h)
    rwa [← e] at this
  have hx : ‖c x‖ ≤ radius := clip_norm hr x
  constructor
  · refine (mixture_dominates ν _ (hF _) (hF _) _ fun v => ?_).map measurable_ok
    rw [law_eq _ _ _ ha, law_eq _ _ _ ha]
    refine fixed_dominates _ _ _ hr.le ha v _ _ (c x) _ _ (fun p hpx => ?_) (fun p hpx => ?_) hg (fun p hpx => ?_) fun p hpx => ?_
    · rw [cnt_insert, if_pos hpx]; exact (dl_dominates ha _).2
    · rw [cnt_insert, if_neg hpx, add_zero]
    · rw [prefixSum_insert, if_pos hpx, add_sub_cancel_left]; exact hx
    · rw [prefixSum_insert, if_neg hpx, add_zero]
  · refine (mixture_dominates ν _ (hF _) (hF _) _ fun v => ?_).map measurable_ok
    rw [law_eq _ _ _ ha, law_eq _ _ _ ha]
    refine fixed_dominates _ _ _ hr.le ha v _ _ (c x) _ _ (fun p hpx => ?_) (fun p hpx => ?_) hg (fun p hpx => ?_) fun p hpx => ?_
    · rw [cnt_insert, if_pos hpx]; exact (dl_dominates ha _).1
    · rw [cnt_insert, if_neg hpx, add_zero]
    · rw [prefixSum_insert, if_pos hpx, norm_sub_rev, add_sub_cancel_left]; exact hx
    · rw [prefixSum_insert, if_neg hpx, add_zero]

lemma gauss_of_shift {σ r : ℝ} (hσ : 0 < σ) (hr : 0 < r) :
    (gaussLaw (σ / r)).Of (gaussianReal 0 (Real.toNNReal (σ ^ 2))) (gaussianReal r (Real.toNNReal (σ ^ 2))) := by
  have h := (gaussLaw_of (div_pos hσ hr) (neg_ne_zero.2 hr.ne')).equiv (MeasurableEquiv.addRight r)
  have e : (σ / r * -r) ^ 2 = σ ^ 2 := by field_simp
  rw [e] at h
  have e1 : ∀ m, (gaussianReal m (Real.toNNReal (σ ^ 2))).map (MeasurableEquiv.addRight r) = gaussianReal (m + r) (Real.toNNReal (σ ^ 2)) :=
    fun m => gaussianReal_map_add_const r
  rw [e1, e1] at h
  simpa using h

lemma countsAndSum_hs {σ a radius : ℝ} (hσ : 0 < σ) (ha : 0 < a) (hr : 0 < radius) (depth : ℤ) (e : ℝ) :
    IsHs (countsAndSum (depth.toNat + 1) a σ 0 0) (countsAndSum (depth.toNat + 1) a σ 1 radius) e ((coresetLoss σ a radius depth).hs e) := by
  have := Verif.Mech.discreteLaplace_prob ha
  have i := fun m => shift_prob ha m
  have h0 : (discreteLaplace a).map ((0 : ℤ) + ·) = discreteLaplace a := by simp
  have h := ((dl_of ha).pi (depth.toNat + 1)).prod (gauss_of_shift hσ hr)
  unfold countsAndSum
  rw [h0]
  exact h.isHs e

lemma gauss_hs_lt_one (z e : ℝ) : (gaussLaw z).hs e < 1 := by
  unfold LossLaw.hs lossHs
  have hi : Integrable (fun x => hinge (e : EReal) x) (gaussLaw z).μ := integrable_hinge _ _
  have hp : IsProbabilityMeasure (gaussLaw z).μ := by unfold gaussLaw; infer_instance
  have hpos : ∀ x : ℝ, 0 < 1 - hinge (e : EReal) x := by
    intro x
    rw [hinge_coe]
    have := Real.exp_pos (e - x)
    have : max 0 (1 - Real.exp (e - x)) < 1 := max_lt one_pos (by linarith)
    linarith
  have : 0 < ∫ x, (1 - hinge (e : EReal) x) ∂(gaussLaw z).μ := by
    rw [integral_pos_iff_support_of_nonneg (fun x => (hpos x).le) ((integrable_const _).sub hi)]
    have : Function.support (fun x : ℝ => 1 - hinge (e : EReal) x) = Set.univ := Set.eq_univ_of_forall fun x => (hpos x).ne'
    rw [this]
    simp
  rw [integral_sub (integrable_const _) hi] at this
  simp at this
  show 0 + _ < _
  linarith

end Verif.Clustering

namespace Verif.Spec
open MeasureTheory ProbabilityTheory

/-- Post-processing. -/
lemma LossLaw.Dominates.comp {Ω Ω' : Type*} [MeasurableSpace Ω] [MeasurableSpace Ω'] {P Q : Measure Ω} [IsProbabilityMeasure P]
    [IsProbabilityMeasure Q] {L : LossLaw} (h : L.Dominates P Q) (K : Kernel Ω Ω') [IsMarkovKernel K] : L.Dominates (K ∘ₘ P) (K ∘ₘ Q) := by
  have hc : L.conv LossLaw.zero = L := by rw [conv_comm, zero_conv]
  have := (h.adaptive (κ := K) (η := K) (B := LossLaw.zero) fun x => zero_dominates _).map measurable_snd
  rwa [hc, ← Measure.snd, ← Measure.snd, Measure.snd_compProd, Measure.snd_compProd] at this

end Verif.Spec
