import Verif.Props.SampledWithoutReplacement
import Verif.Proofs.RdpTight
import Mathlib.Probability.Kernel.Composition.MeasureComp

/-! # A sample is never worse than its parts: Rényi divergence of mixtures with common weights -/

namespace Verif.Wor
open MeasureTheory ProbabilityTheory Verif.Spec Verif.RdpConv
open scoped ENNReal

/-- The divergence of mixtures with the same weights is at most the largest divergence of their components. -/
lemma renyi_mixture {ι : Type} [Countable ι] {Ω : Type} [MeasurableSpace Ω] {α : ℝ} (hα : 1 ≤ α) (K : Finset ι) (w : ι → ℝ≥0∞)
    (hw : ∑ k ∈ K, w k = 1) (P Q : ι → Measure Ω) [hP : ∀ k, IsProbabilityMeasure (P k)] [hQ : ∀ k, IsProbabilityMeasure (Q k)] {r : EReal}
    (h : ∀ k, renyiDiv α (P k) (Q k) ≤ r) : renyiDiv α (∑ k ∈ K, w k • P k) (∑ k ∈ K, w k • Q k) ≤ r := by
  let _ : MeasurableSpace ι := ⊤
  have : DiscreteMeasurableSpace ι := ⟨fun _ => trivial⟩
  set μ : Measure ι := ∑ k ∈ K, w k • Measure.dirac k with hμ
  have : IsProbabilityMeasure μ := by
    constructor
    rw [hμ, Measure.finsetSum_apply]
    simpa using hw
  have key : ∀ (P : ι → Measure Ω) (_ : ∀ k, IsProbabilityMeasure (P k)), ∃ κ : Kernel ι Ω, IsMarkovKernel κ ∧ (∀ k, κ k = P k) ∧
      (μ ⊗ₘ κ).map Prod.snd = ∑ k ∈ K, w k • P k := by
    intro P hP
    let κ : Kernel ι Ω := ⟨P, measurable_from_top⟩
    have hκ : ∀ k, κ k = P k := fun k => rfl
    have : IsMarkovKernel κ := ⟨fun k => by rw [hκ]; exact hP k⟩
    refine ⟨κ, this, hκ, ?_⟩
    rw [← Measure.snd, Measure.snd_compProd]
    ext A hA
    rw [Measure.bind_apply hA κ.aemeasurable, hμ, lintegral_finsetSum_measure, Measure.finsetSum_apply]
    refine Finset.sum_congr rfl fun k _ => ?_
    rw [lintegral_smul_measure, lintegral_dirac, hκ, Measure.smul_apply]
  obtain ⟨κ, mκ, eκ, sκ⟩ := key P hP
  obtain ⟨η, mη, eη, sη⟩ := key Q hQ
  rw [← sκ, ← sη]
  refine (renyi_map_le hα measurable_snd).trans ?_
  have := Props.C37_adaptive_composition α hα 0 r μ μ κ η (le_of_eq (renyi_self α hα μ)) fun k => by rw [eκ, eη]; exact h k
  rwa [zero_add] at this

/-- The Gaussian mechanism on a sample drawn without replacement loses at most what it loses on all records. -/
lemma wor_le_gaussian {n m : ℕ} (hm : m ≤ n) {z : ℝ} (hz : 0 < z) {α : ℝ} (hα : 1 ≤ α) {Ω : Type} [MeasurableSpace Ω] (P Q : Measure Ω)
    (h : WorGaussianPair n m z Ω P Q) : renyiDiv α P Q ≤ ((α / (2 * z ^ 2) : ℝ) : EReal) := by
  cases h with
  | mk f Δ hΔ hf D i x =>
  have hS : ∀ S : Finset (Fin n), ‖f (S.val.map D) - f (S.val.map (Function.update D i x))‖ ≤ Δ := ?_
  have hw : ∑ _S ∈ (Finset.univ : Finset (Fin n)).powersetCard m, ENNReal.ofReal (1 / (n.choose m : ℝ)) = 1 := ?_
  · exact renyi_mixture (ι := Finset (Fin n)) hα _ (fun _ => ENNReal.ofReal (1 / (n.choose m : ℝ))) hw (fun S => gaussianVec (f (S.val.map D)) (z * Δ))
      (fun S => gaussianVec (f (S.val.map (Function.update D i x))) (z * Δ)) fun S => renyi_gaussianVec hα hz _ _ hΔ (hS S)
  · have hc : (0 : ℝ) < n.choose m := by exact_mod_cast Nat.choose_pos hm
    rw [Finset.sum_const, Finset.card_powersetCard, Finset.card_univ, Fintype.card_fin, nsmul_eq_mul, ← ENNReal.ofReal_natCast,
      ← ENNReal.ofReal_mul hc.le, mul_one_div_cancel hc.ne', ENNReal.ofReal_one]
  · intro S
    by_cases hi : i ∈ S
    · have e1 := Multiset.cons_erase (show i ∈ S.val from hi)
      have e2 : (S.val.erase i).map (Function.update D i x) = (S.val.erase i).map D := by
        refine Multiset.map_congr rfl fun k hk => ?_
        rw [Function.update_of_ne]
        intro hc
        rw [hc] at hk
        exact S.nodup.notMem_erase hk
      rw [← e1, Multiset.map_cons, Multiset.map_cons, e2]
      exact hf _ _ _
    · have e : S.val.map (Function.update D i x) = S.val.map D := by
        refine Multiset.map_congr rfl fun k hk => ?_
        rw [Function.update_of_ne]
        intro hc
        rw [hc] at hk
        exact hi hk
      rw [e, sub_self, norm_zero]
      exact hΔ.le

end Verif.Wor
