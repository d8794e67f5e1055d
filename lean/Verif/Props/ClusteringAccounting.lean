import Verif.Props.ClusteringBudget
import Verif.Proofs.ClusteringPrivate
import Verif.Proofs.LaplaceLaw
import Verif.Spec.EventMeaning

/-!
# C47: the counts are accounted for as if their noise were continuous

The event that is accounted for has `LaplaceDpEvent(1 / a)` for each count (`privacy_calculator.py:46-48`), which stands for continuous
Laplace noise. The counts get discrete Laplace noise (`central_privacy_utils.py:98-99`), whose privacy is worse at every `ε < a`.
-/

namespace Verif.Props
open MeasureTheory ProbabilityTheory Verif Verif.Spec Verif.Clustering Verif.Advanced Verif.Pld Verif.Mech

/-- The two curves. -/
lemma curves_lt {a ε : ℝ} (h1 : -a < ε) (h2 : ε < a) :
    1 - Real.exp ((ε - a) / 2) < (Real.exp a - Real.exp ε) / (Real.exp a + 1) := by
  have hu : Real.exp a = Real.exp (a / 2) * Real.exp (a / 2) := by rw [← Real.exp_add]; ring_nf
  have hv : Real.exp ε = Real.exp (ε / 2) * Real.exp (ε / 2) := by rw [← Real.exp_add]; ring_nf
  have hq : Real.exp ((ε - a) / 2) = Real.exp (ε / 2) / Real.exp (a / 2) := by rw [← Real.exp_sub]; ring_nf
  have huv : 1 < Real.exp (a / 2) * Real.exp (ε / 2) := by
    rw [← Real.exp_add, Real.one_lt_exp_iff]; linarith
  have hlt : Real.exp (ε / 2) < Real.exp (a / 2) := Real.exp_lt_exp.2 (by linarith)
  rw [hu, hv, hq]
  have pu := Real.exp_pos (a / 2)
  generalize Real.exp (a / 2) = u at *
  generalize Real.exp (ε / 2) = v at *
  rw [show 1 - v / u = (u - v) / u by field_simp, div_lt_div_iff₀ pu (by positivity)]
  nlinarith [mul_pos (sub_pos.2 hlt) (sub_pos.2 huv)]

lemma dl_neg_real {a : ℝ} (S : Set ℤ) : (discreteLaplace a).real ((fun k => -k) ⁻¹' S) = (discreteLaplace a).real S := by
  conv_rhs => rw [← dl_neg]
  rw [measureReal_def, measureReal_def, Measure.map_apply (by fun_prop) (Set.to_countable _).measurableSet]

lemma dl_ge_zero {a : ℝ} (ha : 0 < a) : (discreteLaplace a).real {n | 2 ≤ 2 + n} = Real.exp a / (Real.exp a + 1) := by
  rw [← dl_nonpos ha, ← dl_neg_real]
  congr 1
  ext z
  simp

lemma dl_ge_one {a : ℝ} (ha : 0 < a) : (discreteLaplace a).real {n | 2 ≤ 1 + n} = 1 / (Real.exp a + 1) := by
  have := discreteLaplace_prob ha
  have h : ({n | 2 ≤ 1 + n} : Set ℤ) = (Set.Iic 0)ᶜ := by
    ext z
    simp only [Set.mem_Iic, Set.mem_compl_iff, Set.mem_setOf_eq]
    omega
  rw [h, probReal_compl_eq_one_sub measurableSet_Iic, dl_nonpos ha]
  field_simp
  ring

/-- **C47, the noise.** The exact `δ` of a count with discrete Laplace noise of parameter `a` is larger than that of continuous Laplace
noise of scale `1 / a`, at every `ε` strictly between `-a` and `a`. -/
theorem C47_noise_mismatch {a ε : ℝ} (ha : 0 < a) (h1 : -a < ε) (h2 : ε < a) :
    ∃ δc δd, δc < δd ∧ IsHs (upper (laplace 0 (1 / a)) 1 1 .remove) (lower (laplace 0 (1 / a)) 1 1 .remove) ε δc ∧
      IsHs (discreteLaplace a) ((discreteLaplace a).map (1 + ·)) ε δd := by
  have hh := laplace_hs (b := 1 / a) (ε := ε) (by positivity) (by rw [one_div_one_div]; exact h1) (by rw [one_div_one_div]; exact h2.le)
  rw [one_div_one_div] at hh
  have hdp := discreteLaplace_prob ha
  have hd := (dl_of ha).isHs ε
  refine ⟨_, _, lt_of_lt_of_le (curves_lt h1 h2) ?_, hh, hd⟩
  have := hd.1 (Set.Iic 0) measurableSet_Iic
  rw [dl_nonpos ha, map_measureReal_apply (by fun_prop) measurableSet_Iic] at this
  have hn : (discreteLaplace a).real ((1 + ·) ⁻¹' Set.Iic (0 : ℤ)) = 1 / (Real.exp a + 1) := by
    rw [← dl_ge_one ha, ← dl_neg_real]
    congr 1
    ext z
    simp only [Set.mem_preimage, Set.mem_Iic, Set.mem_setOf_eq]
    omega
  rw [hn] at this
  rw [sub_div, div_eq_mul_one_div (Real.exp ε)]
  linarith

example : ∃ δc δd, δc < δd ∧ IsHs (upper (laplace 0 (1 / 2)) 1 1 .remove) (lower (laplace 0 (1 / 2)) 1 1 .remove) 1 δc ∧
      IsHs (discreteLaplace 2) ((discreteLaplace 2).map (1 + ·)) 1 δd := C47_noise_mismatch two_pos (by norm_num) (by norm_num)

/-- The accountant, when new, accepts the event, and what it then reports exceeds the optimal `(ε, δ)` curve of the event by at most `η` in
`δ`. (It may report less than the optimal curve.) -/
def ReportsWithin {S : Type} (A : Acct S) (e : DpEvent) (η : ℝ) : Prop :=
  ∃ s, A.acct.compose A.fresh (.event e) (.int 1) = (s, .ok ()) ∧ ∀ ε δ : ℝ, 0 ≤ δ →
    (∀ (Ω : Type) [MeasurableSpace Ω] (P Q : Measure Ω), Adaptive ((expand e).map (EventPair .addOrRemoveOne)) Ω P Q → Indist P Q ε δ) →
    A.getDelta s ε ≤ δ + η ∧ A.getEpsilon s (δ + η) ≤ ε

/-- Some point of the coreset has weight two or more. -/
def heavy (d : ℕ) : Set (Except Err (List (Point d × ℤ))) := {o | ∃ c, o = .ok c ∧ ∃ p ∈ c, 2 ≤ p.2}

variable {d : ℕ}

lemma measurableSet_heavy : MeasurableSet (heavy d) := by
  refine MeasurableSpace.measurableSet_inf.2 ⟨trivial, ?_⟩
  show MeasurableSet (Except.ok ⁻¹' heavy d)
  refine MeasurableSpace.measurableSet_iInf.2 fun n => ?_
  show MeasurableSet (List.ofFn ⁻¹' (Except.ok ⁻¹' heavy d) : Set (Fin n → Point d × ℤ))
  have : (List.ofFn ⁻¹' (Except.ok ⁻¹' heavy d) : Set (Fin n → Point d × ℤ)) = ⋃ i, {f | 2 ≤ (f i).2} := by
    ext f
    simp only [Set.mem_preimage, heavy, Set.mem_setOf_eq, Except.ok.injEq, exists_eq_left', List.mem_ofFn, Set.mem_range, Set.mem_iUnion]
    constructor
    · rintro ⟨p, ⟨i, rfl⟩, h⟩
      exact ⟨i, h⟩
    · rintro ⟨i, h⟩
      exact ⟨f i, ⟨i, rfl⟩, h⟩
  rw [this]
  refine MeasurableSet.iUnion fun i => ?_
  exact measurableSet_le measurable_const (measurable_snd.comp (measurable_pi_apply i))

lemma coresetLaw_heavy (ν : Measure (ℕ → Point d)) [IsProbabilityMeasure ν] (σ : ℝ) {a : ℝ} (ha : 0 < a) (k : ℤ) (radius : ℝ)
    (t : TreeParam) (ht : TreeOk t) (hd : t.maxDepth = 0) (pts : List (Point d)) (hp : pts ≠ []) :
    (coresetLaw ν σ a k radius 0 (some t) pts).real (heavy d) = (discreteLaplace a).real {n | 2 ≤ (pts.length : ℤ) + n} := by
  have := discreteLaplace_prob ha
  have hk : some t = none → k ≠ 0 := by simp
  have ht' : ∀ t' ∈ some t, TreeOk t' := by simpa using ht
  have hd' : ∀ t' ∈ some t, t'.maxDepth = 0 := by simpa using hd
  have hm : Measurable (restrictDraws (d := d) (0 : ℤ).toNat) := by
    unfold restrictDraws
    have m1 := Finset.measurable_restrict (X := fun _ : List Bool => ℤ) (prefixes (0 : ℤ).toNat)
    have m2 := Finset.measurable_restrict (X := fun _ : List Bool => Point d) (prefixes (0 : ℤ).toNat)
    fun_prop
  have hF : Measurable fun w => outOf (treeOf σ radius k d 0 (some t)) radius
      (noisyData (D := (0 : ℤ).toNat) σ (pts.map fun x => clipScale radius x • x) w) := (measurable_outOf _ _).comp (measurable_noisyData _ _)
  have he : (fun w : (ℕ → Point d) × (List Bool → ℤ) × (List Bool → Point d) =>
      privateCoreset ⟨σ, radius, .float a⟩ k pts radius 0 (some t) ⟨w.1, w.2.1, w.2.2⟩) = fun w => .ok (outOf (treeOf σ radius k d 0 (some t)) radius
      (noisyData (D := (0 : ℤ).toNat) σ (pts.map fun x => clipScale radius x • x) (restrictDraws (0 : ℤ).toNat w))) := by
    funext w
    exact privateCoreset_eq σ a k radius 0 (some t) hk ht' hd' le_rfl pts hp w
  unfold coresetLaw
  rw [he]
  refine (map_measureReal_apply (measurable_ok.comp (hF.comp hm)) measurableSet_heavy).trans ?_
  show (ν.prod (noiseLaw d a)).real ((fun w : (ℕ → Point d) × (List Bool → ℤ) × (List Bool → Point d) => (Except.ok (outOf (treeOf σ radius k d 0 (some t)) radius
      (noisyData (D := (0 : ℤ).toNat) σ (pts.map fun x => clipScale radius x • x) (restrictDraws (0 : ℤ).toNat w))) :
        Except Err (List (Point d × ℤ)))) ⁻¹' heavy d) = _
  have hpre : (fun w : (ℕ → Point d) × (List Bool → ℤ) × (List Bool → Point d) => (Except.ok (outOf (treeOf σ radius k d 0 (some t)) radius
      (noisyData (D := (0 : ℤ).toNat) σ (pts.map fun x => clipScale radius x • x) (restrictDraws (0 : ℤ).toNat w))) :
        Except Err (List (Point d × ℤ)))) ⁻¹' heavy d = Set.univ ×ˢ (((fun f : List Bool → ℤ => f []) ⁻¹' {n | 2 ≤ (pts.length : ℤ) + n}) ×ˢ Set.univ) := by
    ext ⟨v, n, g⟩
    have hc : (cnt v (pts.map fun x => clipScale radius x • x) [] : ℤ) = pts.length := by
      unfold cnt
      rw [List.filter_eq_self.2 fun x _ => by simpa using inPrefix_nil v x, List.length_map]
    simp only [Set.mem_preimage, heavy, Set.mem_setOf_eq, Except.ok.injEq, exists_eq_left', Set.mem_prod, Set.mem_univ, true_and, and_true]
    rw [outOf_eq _ (fun z => by simp [treeOf, hd])]
    simp only [treeOf, skeleton, hd, Int.toNat_zero, skelLevels, skelLeaves, hc]
    simp [skelIsLeaf]
  rw [hpre]
  unfold noiseLaw
  rw [measureReal_prod_prod, measureReal_prod_prod, probReal_univ, probReal_univ, one_mul, mul_one,
    ← map_measureReal_apply (measurable_pi_apply _) (Set.to_countable _).measurableSet, Measure.infinitePi_map_eval]

/-- **C47, violated by the accounting.** For every parameter `a` of the counts and every `ε < a` there are a noise level `σ` of the sums, a
`δ < 1` and a tolerance `η > 0` such that the check of the budget passes with every accountant that overstates `δ` by `η` or less, and yet the coreset of
a data set with two records and that of one with one record are not `(ε, δ)`-indistinguishable. The tree has depth zero. -/
theorem C47_accounting_violated (d : ℕ) {a ε radius : ℝ} (ha : 0 < a) (h0 : 0 ≤ ε) (h1 : ε < a) (hr : 0 < radius) :
    ∃ σ δ η : ℝ, 0 < σ ∧ 0 < δ ∧ δ < 1 ∧ 0 < η ∧
      (∀ (S : Type) (A : Acct S), ReportsWithin A (clusteringEvent σ radius a 0) η →
        validateAccounting A ⟨σ, radius, .float a⟩ ⟨ε, δ, true⟩ 0 = .ok ()) ∧
      ∀ (ν : Measure (ℕ → Point d)) [IsProbabilityMeasure ν] (k : ℤ) (t : TreeParam), TreeOk t → t.maxDepth = 0 → ∀ x y : Point d,
        ¬ Indist (coresetLaw ν σ a k radius 0 (some t) [x, y]) (coresetLaw ν σ a k radius 0 (some t) [x]) ε δ := by
  have hlt := curves_lt (a := a) (by linarith) h1
  set δc := 1 - Real.exp ((ε - a) / 2) with hδc
  set δd := (Real.exp a - Real.exp ε) / (Real.exp a + 1) with hδd
  have hc0 : 0 < δc := by
    have : Real.exp ((ε - a) / 2) < 1 := Real.exp_lt_one_iff.2 (by linarith)
    linarith
  have hd1 : δd < 1 := by
    rw [hδd, div_lt_one (by positivity)]
    have := Real.exp_pos ε
    linarith
  set g := δd - δc with hg
  have hg0 : 0 < g := by linarith
  set z := max 1 (8 / g) with hz
  have hz1 : 1 ≤ z := le_max_left _ _
  have hz0 : 0 < z := by linarith
  have hzg : 2 / z ≤ g / 4 := by
    rw [div_le_iff₀ hz0]
    have : 8 / g ≤ z := le_max_right _ _
    rw [div_le_iff₀ hg0] at this
    linarith
  refine ⟨z * radius, δc + g / 2, g / 4, by positivity, by linarith, by linarith, by linarith, ?_, ?_⟩
  · rintro S A ⟨s, hs, hrep⟩
    obtain ⟨L, hL, hLhs⟩ := exists_laplaceLaw (b := 1 / a) (by positivity)
    rw [one_div_one_div] at hLhs
    have hzr : z * radius / radius = z := by field_simp
    have hrep := hrep ε (δc + g / 4) (by linarith) (by
      intro Ω _ P Q had
      have hev : (expand (clusteringEvent (z * radius) radius a 0)).map (EventPair .addOrRemoveOne) = [GaussianPair z, LaplacePair (1 / a)] := by
        simp [clusteringEvent, expand, expandList, EventPair, PyNum.val, hzr]
      rw [hev] at had
      obtain ⟨_, _, hdom⟩ := had.dominates [gaussLaw z, L] (.cons (fun Ω _ P Q _ _ h => gaussLaw_lawFor hz0 Ω P Q h)
        (.cons (fun Ω _ P Q _ _ h => hL Ω P Q h) .nil))
      intro T hT
      refine (hdom ε T hT).trans ?_
      have e1 : (LossLaw.convAll [gaussLaw z, L]).hs ε = (L.conv (gaussLaw z)).hs ε := by
        show ((gaussLaw z).conv (L.conv LossLaw.zero)).hs ε = _
        rw [conv_comm L LossLaw.zero, zero_conv, conv_comm]
      have e2 := conv_hs_le_add L (gaussLaw z) ε
      rw [hLhs ε (by linarith) h1.le] at e2
      have e3 := gauss_hs_zero hz1
      rw [e1]
      linarith)
    have hsum : δc + g / 4 + g / 4 = δc + g / 2 := by ring
    rw [hsum] at hrep
    have hb : build2 (.gaussian (.float (z * radius / radius))) (.laplace (.float (1 / a))) 1 (0 + 1) = .ok (clusteringEvent (z * radius) radius a 0) :=
      build2_ok le_rfl
    unfold validateAccounting
    have hp : ¬ (PrivacyParam.mk (ε : EReal) (δc + g / 2) true).NonPrivate := by
      unfold PrivacyParam.NonPrivate
      simp only [EReal.coe_ne_top, false_or]
      linarith
    rw [if_neg hp, makeEvent_float (by positivity), hb]
    simp only [hs]
    rw [if_neg]
    push Not
    exact ⟨hrep.2, by rw [EReal.toReal_coe]; exact hrep.1⟩
  · intro ν _ k t ht hd x y h
    have := h _ measurableSet_heavy
    rw [coresetLaw_heavy ν _ ha k radius t ht hd _ (by simp), coresetLaw_heavy ν _ ha k radius t ht hd _ (by simp)] at this
    simp only [List.length_cons, List.length_nil, zero_add, Nat.cast_one, Nat.reduceAdd, Nat.cast_ofNat] at this
    rw [dl_ge_zero ha, dl_ge_one ha] at this
    have e : δd = Real.exp a / (Real.exp a + 1) - Real.exp ε * (1 / (Real.exp a + 1)) := by
      rw [hδd, sub_div, div_eq_mul_one_div (Real.exp ε)]
    linarith

/-- An accountant that accepts everything and reports the optimal curve of the event `e`. -/
noncomputable def optimalAcct (e : DpEvent) : Acct Unit :=
  let V : Set (ℝ × ℝ) := {p | ∀ (Ω : Type) [MeasurableSpace Ω] (P Q : Measure Ω),
    Adaptive ((expand e).map (EventPair .addOrRemoveOne)) Ω P Q → Indist P Q p.1 p.2}
  ⟨⟨fun _ _ _ u => (u, .ok none)⟩, ⟨(), Builder.init⟩, fun _ δ => sInf ((fun ε : ℝ => (ε : EReal)) '' {ε | (ε, δ) ∈ V}), fun _ ε => sInf {δ | 0 ≤ δ ∧ (ε, δ) ∈ V}⟩

/-- The condition on the accountant is that of an accurate accountant. -/
lemma optimalAcct_ok {σ r a η : ℝ} (hη : 0 ≤ η) : ReportsWithin (optimalAcct (clusteringEvent σ r a 0)) (clusteringEvent σ r a 0) η := by
  obtain ⟨s, hs⟩ : ∃ s, (optimalAcct (clusteringEvent σ r a 0)).acct.compose (optimalAcct (clusteringEvent σ r a 0)).fresh
      (.event (clusteringEvent σ r a 0)) (.int 1) = (s, .ok ()) := toy_compose σ r a 0
  refine ⟨s, hs, fun ε δ hδ h => ⟨?_, ?_⟩⟩
  · have : sInf {δ | 0 ≤ δ ∧ ∀ (Ω : Type) [MeasurableSpace Ω] (P Q : Measure Ω),
        Adaptive ((expand (clusteringEvent σ r a 0)).map (EventPair .addOrRemoveOne)) Ω P Q → Indist P Q ε δ} ≤ δ :=
      csInf_le ⟨0, fun x hx => hx.1⟩ ⟨hδ, h⟩
    exact this.trans (by linarith)
  · refine sInf_le ⟨ε, ?_, rfl⟩
    intro Ω _ P Q hA T hT
    have := h Ω P Q hA T hT
    show _ ≤ _ + (δ + η)
    linarith

/-- An instance: `a = 2`, `ε = 1`, unit radius, points in the plane, the accurate accountant. -/
example : ∃ σ δ : ℝ, 0 < σ ∧ δ < 1 ∧
    validateAccounting (optimalAcct (clusteringEvent σ 1 2 0)) ⟨σ, 1, .float 2⟩ ⟨(1 : ℝ), δ, true⟩ 0 = .ok () ∧
    ¬ Indist (coresetLaw (d := 2) (Measure.dirac 0) σ 2 1 1 0 (some ⟨3, 1, 0⟩) [0, 0])
      (coresetLaw (Measure.dirac 0) σ 2 1 1 0 (some ⟨3, 1, 0⟩) [0]) 1 δ := by
  obtain ⟨σ, δ, η, hσ, _, hδ, hη, hA, hI⟩ := C47_accounting_violated 2 (a := 2) (ε := 1) (radius := 1) two_pos zero_le_one one_lt_two one_pos
  exact ⟨σ, δ, hσ, hδ, hA _ _ (optimalAcct_ok hη.le), hI (Measure.dirac 0) 1 ⟨3, 1, 0⟩ (by unfold TreeOk; norm_num) rfl 0 0⟩

end Verif.Props
