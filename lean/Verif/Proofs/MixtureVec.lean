import Verif.Proofs.MixtureLaw
import Verif.Proofs.SampledNoise

/-! # Mixtures of Gaussians: vector queries -/

namespace Verif.Mixture
open Verif Spec Pld MeasureTheory ProbabilityTheory Mech

lemma vecMixture_real {d : ℕ} {σ : ℝ} (c : Vec d) {vs : List (Vec d × ℝ)} (h : ∀ v ∈ vs, 0 ≤ v.2) (S : Set (Vec d)) :
    (vecMixture σ c vs).real S = (vs.map fun v => v.2 * (gaussianVec (c + v.1) σ).real S).sum := by
  have key : vecMixture σ c vs S ≠ ⊤ ∧
      (vecMixture σ c vs).real S = (vs.map fun v => v.2 * (gaussianVec (c + v.1) σ).real S).sum := by
    induction vs with
    | nil => simp [vecMixture]
    | cons v vs ih =>
      obtain ⟨h1, h2⟩ := ih fun v hv => h v (List.mem_cons_of_mem _ hv)
      have e : vecMixture σ c (v :: vs) = ENNReal.ofReal v.2 • gaussianVec (c + v.1) σ + vecMixture σ c vs := by
        simp [vecMixture]
      have hf : (ENNReal.ofReal v.2 • gaussianVec (c + v.1) σ) S ≠ ⊤ := by
        rw [Measure.smul_apply, smul_eq_mul]
        exact ENNReal.mul_ne_top ENNReal.ofReal_ne_top (measure_ne_top _ _)
      refine ⟨by rw [e, Measure.add_apply]; exact ENNReal.add_ne_top.2 ⟨hf, h1⟩, ?_⟩
      rw [measureReal_def, e, Measure.add_apply, ENNReal.toReal_add hf h1, ← measureReal_def (vecMixture σ c vs), h2, List.map_cons,
        List.sum_cons, Measure.smul_apply, smul_eq_mul, ENNReal.toReal_mul, ENNReal.toReal_ofReal (h v (by simp)), ← measureReal_def]
  exact key.2

/-- The distribution function of the noise. -/
noncomputable def gcdf (σ x : ℝ) : ℝ := (gaussianReal 0 (Real.toNNReal (σ ^ 2))).real (Set.Iic x)

lemma gcdf_noise {σ : ℝ} (hσ : 0 < σ) : NoiseCdf (gaussianReal 0 (Real.toNNReal (σ ^ 2))) (gcdf σ) := gauss_noiseCdf hσ

lemma gcdf_neg {σ : ℝ} (hσ : 0 < σ) (x : ℝ) : gcdf σ (-x) = 1 - gcdf σ x := by
  have hn := gcdf_noise hσ
  set μ := gaussianReal 0 (Real.toNNReal (σ ^ 2)) with hμ
  have e : μ.map (fun x => -x) = μ := by rw [gaussianReal_map_neg, neg_zero]
  have h1 : gcdf σ (-x) = μ.real (Set.Ici x) := by
    unfold gcdf
    rw [← hμ]
    conv_lhs => rw [← e]
    rw [measureReal_def, Measure.map_apply measurable_neg measurableSet_Iic, measureReal_def]
    congr 2
    ext y; simp
  have h2 : μ.real (Set.Ici x) = μ.real (Set.Ioi x) := by
    have := hn.noAtoms x
    rw [measureReal_def, measureReal_def, ← Set.Ioi_union_left, measure_union (by simp) (measurableSet_singleton x), this, add_zero]
  rw [h1, h2, ← Set.compl_Iic, probReal_compl_eq_one_sub measurableSet_Iic]
  rfl

lemma gcdf_shift (σ s x : ℝ) : (gaussianReal s (Real.toNNReal (σ ^ 2))).real (Set.Iic x) = gcdf σ (x - s) := by
  have := Obj.shift_below σ s (x : EReal)
  rw [← EReal.coe_add, Obj.below_coe, Obj.below_coe, ← sub_eq_add_neg] at this
  exact this

lemma shifted_component {d : ℕ} {σ : ℝ} (hσ : 0 < σ) (c v : Vec d) {s : ℝ} (h : ‖v‖ ≤ s) :
    Shifted (gcdf σ) s (gaussianVec (c + v) σ) (gaussianVec c σ) := by
  rcases ((norm_nonneg v).trans h).eq_or_lt with h0 | h0
  · have : v = 0 := norm_le_zero_iff.1 (h.trans h0.ge)
    rw [this, add_zero, ← h0]
    exact Shifted.refl _
  · exact shifted_gaussianVec (c + v) c hσ h0 (by rwa [add_sub_cancel_left])

lemma within_prob {d : ℕ} {vs : List (Vec d × ℝ)} {cs : List (ℝ × ℝ)} (hw : ChangeWithin vs cs) (h : ∀ c ∈ cs, 0 ≤ c.2) :
    ∀ v ∈ vs, 0 ≤ v.2 := by
  intro v hv
  induction hw with
  | nil => simp at hv
  | cons h1 _ ih =>
    rcases List.mem_cons.1 hv with rfl | hv
    · rw [h1.2]; exact h _ (by simp)
    · exact ih (fun c hc => h c (List.mem_cons_of_mem _ hc)) hv

lemma within_sum {d : ℕ} {vs : List (Vec d × ℝ)} {cs : List (ℝ × ℝ)} (hw : ChangeWithin vs cs) (h : ∀ c ∈ cs, 0 ≤ c.2)
    {f : Vec d → ℝ} {g : ℝ → ℝ} (hfg : ∀ v c, ‖v‖ ≤ c → f v ≤ g c) :
    (vs.map fun v => v.2 * f v.1).sum ≤ (cs.map fun c => c.2 * g c.1).sum := by
  induction hw with
  | nil => simp
  | cons h1 _ ih =>
    rw [List.map_cons, List.map_cons, List.sum_cons, List.sum_cons, h1.2]
    exact add_le_add (mul_le_mul_of_nonneg_left (hfg _ _ h1.1) (h _ (by simp))) (ih fun c hc => h c (List.mem_cons_of_mem _ hc))

lemma shifted_null {σ : ℝ} (hσ : 0 < σ) {Ω : Type*} [MeasurableSpace Ω] {K K' : Measure Ω} {s : ℝ} (hs : Shifted (gcdf σ) s K' K)
    {S : Set Ω} (hS : MeasurableSet S) (h0 : K.real S = 0) : K'.real S = 0 := by
  have hn := gcdf_noise hσ
  by_contra hc
  have hc : 0 < K'.real S := lt_of_le_of_ne measureReal_nonneg (Ne.symm hc)
  have ht : Filter.Tendsto (fun x => gcdf σ (x + s)) Filter.atBot (nhds 0) :=
    hn.tendsto_bot.comp (Filter.tendsto_atBot_add_const_right _ s Filter.tendsto_id)
  obtain ⟨x, hx⟩ := (ht.eventually (gt_mem_nhds hc)).exists
  have := hs S hS x (by rw [h0]; exact hn.nonneg x)
  linarith

lemma sum_const_zero (cs : List (ℝ × ℝ)) : (cs.map fun c => c.2 * (0 : ℝ)).sum = 0 := by induction cs <;> simp_all

lemma sum_const_one (cs : List (ℝ × ℝ)) : (cs.map fun c => c.2 * (1 : ℝ)).sum = (cs.map Prod.snd).sum := by simp

/-- REMOVE: a delta valid for the mixture on the line is valid for every vector query. -/
lemma vec_remove {d : ℕ} {σ : ℝ} (hσ : 0 < σ) {cs : List (ℝ × ℝ)} (hd : SensDist cs) {vs : List (Vec d × ℝ)} (hw : ChangeWithin vs cs)
    (c : Vec d) {ε D : ℝ} (h : Indist (mixUpper σ cs .remove) (mixLower σ cs .remove) ε D) :
    Indist (vecMixture σ c vs) (gaussianVec c σ) ε D := by
  have hn := gcdf_noise hσ
  have hp : ∀ c ∈ cs, 0 ≤ c.2 := fun c hc => (hd.prob c hc).le
  intro S hS
  rw [vecMixture_real c (within_prob hw hp)]
  have hx : ∀ x, (cs.map fun c => c.2 * gcdf σ (x + c.1)).sum ≤ Real.exp ε * gcdf σ x + D := by
    intro x
    have := h _ (measurableSet_Iic (a := x))
    rw [mixUpper, gaussMixture_real (neg_probs hp), List.map_map] at this
    refine le_trans (le_of_eq ?_) this
    congr 1
    refine List.map_congr_left fun c _ => ?_
    simp only [Function.comp]
    rw [gcdf_shift, sub_neg_eq_add]
  rcases (measureReal_nonneg (μ := gaussianVec c σ) (s := S)).eq_or_lt with h0 | h0
  · have := within_sum hw hp (f := fun v => (gaussianVec (c + v) σ).real S) (g := fun _ => 0)
      fun v s hvs => (shifted_null hσ (shifted_component hσ c v hvs) hS h0.symm).le
    rw [sum_const_zero] at this
    have hD : 0 ≤ D := by simpa using h ∅ MeasurableSet.empty
    rw [← h0]
    simp only [mul_zero, zero_add]
    exact this.trans hD
  · rcases (measureReal_le_one (μ := gaussianVec c σ) (s := S)).eq_or_lt with h1 | h1
    · have := within_sum hw hp (f := fun v => (gaussianVec (c + v) σ).real S) (g := fun _ => 1) fun v s hvs => measureReal_le_one
      rw [sum_const_one, hd.sum] at this
      have hu := h _ MeasurableSet.univ
      have p1 : IsProbabilityMeasure (mixUpper σ cs .remove) := gaussMixture_prob (neg_probs hp) (by
        rw [List.map_map]; exact hd.sum)
      have p2 : IsProbabilityMeasure (mixLower σ cs .remove) := by unfold mixLower; infer_instance
      rw [probReal_univ, probReal_univ] at hu
      rw [h1]
      linarith
    · obtain ⟨x, hxx⟩ := hn.exists_eq h0 h1
      have := within_sum hw hp (f := fun v => (gaussianVec (c + v) σ).real S) (g := fun s => gcdf σ (x + s))
        fun v s hvs => shifted_component hσ c v hvs S hS x hxx.ge
      have b := hx x
      rw [hxx] at b
      exact this.trans b

/-- ADD: likewise. -/
lemma vec_add {d : ℕ} {σ : ℝ} (hσ : 0 < σ) {cs : List (ℝ × ℝ)} (hd : SensDist cs) {vs : List (Vec d × ℝ)} (hw : ChangeWithin vs cs)
    (c : Vec d) {ε D : ℝ} (h : Indist (mixUpper σ cs .add) (mixLower σ cs .add) ε D) :
    Indist (gaussianVec c σ) (vecMixture σ c vs) ε D := by
  have hn := gcdf_noise hσ
  have hp : ∀ c ∈ cs, 0 ≤ c.2 := fun c hc => (hd.prob c hc).le
  intro S hS
  rw [vecMixture_real c (within_prob hw hp)]
  have hD : 0 ≤ D := by simpa using h ∅ MeasurableSet.empty
  have he := Real.exp_pos ε
  have hx : ∀ x, gcdf σ x ≤ Real.exp ε * (cs.map fun c => c.2 * gcdf σ (x - c.1)).sum + D := by
    intro x
    have := h _ (measurableSet_Iic (a := x))
    rw [mixLower, gaussMixture_real hp] at this
    refine le_trans this (le_of_eq ?_)
    congr 3
    refine List.map_congr_left fun c _ => ?_
    rw [gcdf_shift]
  have neg : ∀ f : Vec d → ℝ, (vs.map fun v => v.2 * -f v.1).sum = -(vs.map fun v => v.2 * f v.1).sum := by
    intro f
    clear hw
    induction vs with
    | nil => simp
    | cons v vs ih => rw [List.map_cons, List.sum_cons, List.map_cons, List.sum_cons, ih]; ring
  have neg' : ∀ f : ℝ → ℝ, (cs.map fun v => v.2 * -f v.1).sum = -(cs.map fun v => v.2 * f v.1).sum := by
    intro f
    generalize cs = cs
    induction cs with
    | nil => simp
    | cons v vs ih => rw [List.map_cons, List.sum_cons, List.map_cons, List.sum_cons, ih]; ring
  have lower : ∀ g : ℝ → ℝ, (∀ v s, ‖v‖ ≤ s → g s ≤ (gaussianVec (c + v) σ).real S) →
      (cs.map fun c => c.2 * g c.1).sum ≤ (vs.map fun v => v.2 * (gaussianVec (c + v.1) σ).real S).sum := by
    intro g hg
    have := within_sum hw hp (f := fun v => -(gaussianVec (c + v) σ).real S) (g := fun s => -g s) fun v s hvs => neg_le_neg (hg v s hvs)
    rw [neg fun v => (gaussianVec (c + v) σ).real S, neg' g] at this
    linarith
  rcases (measureReal_nonneg (μ := gaussianVec c σ) (s := S)).eq_or_lt with h0 | h0
  · rw [← h0]
    have := lower (fun _ => 0) fun v s _ => measureReal_nonneg
    rw [sum_const_zero] at this
    have := mul_nonneg he.le this
    linarith
  · rcases (measureReal_le_one (μ := gaussianVec c σ) (s := S)).eq_or_lt with h1 | h1
    · have hc : (gaussianVec c σ).real Sᶜ = 0 := by rw [probReal_compl_eq_one_sub hS, h1, sub_self]
      have := lower (fun _ => 1) fun v s hvs => by
        have := shifted_null hσ (shifted_component hσ c v hvs) hS.compl hc
        rw [probReal_compl_eq_one_sub hS] at this
        linarith
      rw [sum_const_one, hd.sum] at this
      have hu := h _ MeasurableSet.univ
      have p1 : IsProbabilityMeasure (mixLower σ cs .add) := gaussMixture_prob hp hd.sum
      have p2 : IsProbabilityMeasure (mixUpper σ cs .add) := by unfold mixUpper; infer_instance
      rw [probReal_univ, probReal_univ] at hu
      rw [h1]
      have := mul_le_mul_of_nonneg_left this he.le
      linarith
    · obtain ⟨x, hxx⟩ := hn.exists_eq h0 h1
      have := lower (fun s => gcdf σ (x - s)) fun v s hvs => by
        have := shifted_component hσ c v hvs Sᶜ hS.compl (-x) (by rw [probReal_compl_eq_one_sub hS, gcdf_neg hσ, hxx])
        rw [probReal_compl_eq_one_sub hS, show -x + s = -(x - s) by ring, gcdf_neg hσ] at this
        linarith
      have b := hx x
      rw [hxx] at b
      have := mul_le_mul_of_nonneg_left this he.le
      linarith

end Verif.Mixture
