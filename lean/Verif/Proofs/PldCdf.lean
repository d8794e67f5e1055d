import Verif.Spec.Privacy
import Verif.Proofs.Pld
import Mathlib.MeasureTheory.Function.LocallyIntegrable
import Mathlib.MeasureTheory.Measure.Stieltjes
import Mathlib.Probability.CDF

namespace Verif.Pld
open Verif Verif.Spec MeasureTheory Set

lemma expect_set_fresh {d : PyDict} {k : ℤ} (hk : k ∉ d.keys) (v : ℝ) (φ : ℤ → ℝ) :
    expect (d.set k v) φ = expect d φ + v * φ k := by
  have := PyDict.expect_set d k v φ
  rwa [PyDict.get_eq_zero hk, zero_add] at this

lemma measurable_hinge (e : EReal) : Measurable (hinge e) := by
  unfold hinge
  split_ifs
  · exact measurable_const
  · exact measurable_const
  · exact measurable_const.max (measurable_const.sub (Real.measurable_exp.comp (measurable_const.sub measurable_id)))

section
variable {μ : Measure ℝ} [IsFiniteMeasure μ]

lemma integrable_unit {f : ℝ → ℝ} (hf : Measurable f) (h0 : ∀ x, 0 ≤ f x) (h1 : ∀ x, f x ≤ 1) : Integrable f μ :=
  Integrable.of_bound (C := 1) hf.aestronglyMeasurable
    (Filter.Eventually.of_forall fun x => by rw [Real.norm_eq_abs, abs_of_nonneg (h0 x)]; exact h1 x)

lemma cdf_sub (a b : ℝ) (h : a ≤ b) : μ.real (Iic b) - μ.real (Iic a) = μ.real (Ioc a b) := by
  rw [← Iic_union_Ioc_eq_Iic h, measureReal_union (Iic_disjoint_Ioc le_rfl) measurableSet_Ioc]; ring

/-- Keys and intervals: key `k` stands for losses in `(k h - s, k h - s + h]`. -/
lemma cdfUp_spec {h t s inf : ℝ} (hh : 0 < h) (hmass : μ.real univ + inf = 1) {fuel : ℕ} {rounded : ℤ} {v : ℝ}
    (hv : v = rounded * h - s) {d d' : PyDict} (hk : ∀ k ∈ d.keys, k < rounded)
    (hr : cdfUp (fun x => μ.real (Iic x)) h t rounded fuel v d = some d') :
    (d.keys.Nodup → d'.keys.Nodup) ∧ ((∀ x ∈ d, 0 ≤ x.2) → ∀ x ∈ d', 0 ≤ x.2) ∧
    (∀ k ∈ d'.keys, k ∈ d.keys ∨ rounded ≤ k) ∧
    (∀ (f : ℝ → ℝ) (φ : ℤ → ℝ), Measurable f → (∀ x, 0 ≤ f x) → (∀ x, f x ≤ 1) →
      ((∀ (k : ℤ) (x : ℝ), k * h - s < x → x ≤ k * h - s + h → f x ≤ φ k) →
        inf + ∫ x in Ioi v, f x ∂μ ≤ t / 2 + (expect d' φ - expect d φ)) ∧
      ((∀ (k : ℤ) (x : ℝ), k * h - s < x → x ≤ k * h - s + h → φ k ≤ f x) →
        expect d' φ - expect d φ ≤ ∫ x in Ioi v, f x ∂μ)) := by
  induction fuel generalizing rounded v d with
  | zero =>
    rw [cdfUp] at hr
    split_ifs at hr with hc
    rw [Option.some.injEq] at hr; subst hr
    refine ⟨id, id, fun k hk => Or.inl hk, fun f φ hf h0 h1 => ⟨fun _ => ?_, fun _ => ?_⟩⟩
    · have hi : ∫ x in Ioi v, f x ∂μ ≤ μ.real (Ioi v) := by
        have := setIntegral_mono_on (μ := μ) (s := Ioi v) (integrable_unit hf h0 h1).integrableOn
          (integrable_const (1 : ℝ)).integrableOn measurableSet_Ioi (fun x _ => h1 x)
        simpa using this
      have : μ.real (Iic v) + μ.real (Ioi v) = μ.real univ := by
        rw [← measureReal_union (Iic_disjoint_Ioi le_rfl) measurableSet_Ioi, Iic_union_Ioi]
      rw [not_lt] at hc
      simp only [sub_self, add_zero]; linarith
    · rw [sub_self]; exact setIntegral_nonneg measurableSet_Ioi (fun x _ => h0 x)
  | succ fuel ih =>
    rw [cdfUp] at hr
    split_ifs at hr with hc
    · have hkn : rounded ∉ d.keys := fun hm => lt_irrefl _ (hk _ hm)
      have hv' : v + h = ((rounded + 1 : ℤ) : ℝ) * h - s := by push_cast; rw [hv]; ring
      have hle : v ≤ v + h := by linarith
      have hm : μ.real (Iic (v + h)) - μ.real (Iic v) = μ.real (Ioc v (v + h)) := cdf_sub v (v + h) hle
      obtain ⟨i1, i2, i3, i4⟩ := ih hv' (d := d.set rounded (μ.real (Iic (v + h)) - μ.real (Iic v)))
        (fun k hk' => by
          rcases (PyDict.mem_keys_set _ _ _ _).1 hk' with rfl | h1
          · omega
          · have := hk k h1; omega) hr
      refine ⟨fun hd => i1 (PyDict.nodup_set hd _ _), fun hd => i2 (PyDict.set_nonneg hd _ ?_), fun k hk' => ?_,
        fun f φ hf h0 h1 => ?_⟩
      · rw [hm]; exact measureReal_nonneg
      · rcases i3 k hk' with h1 | h1
        · rcases (PyDict.mem_keys_set _ _ _ _).1 h1 with rfl | h2
          · exact Or.inr le_rfl
          · exact Or.inl h2
        · exact Or.inr (by omega)
      · obtain ⟨j1, j2⟩ := i4 f φ hf h0 h1
        rw [expect_set_fresh hkn, hm] at j1 j2
        have hint := integrable_unit (μ := μ) hf h0 h1
        have hsplit : ∫ x in Ioi v, f x ∂μ = ∫ x in Ioc v (v + h), f x ∂μ + ∫ x in Ioi (v + h), f x ∂μ := by
          rw [← Ioc_union_Ioi_eq_Ioi hle, setIntegral_union (Ioc_disjoint_Ioi le_rfl) measurableSet_Ioi
            hint.integrableOn hint.integrableOn]
        refine ⟨fun hA => ?_, fun hB => ?_⟩
        · have hb : ∫ x in Ioc v (v + h), f x ∂μ ≤ μ.real (Ioc v (v + h)) * φ rounded := by
            have := setIntegral_mono_on (μ := μ) (s := Ioc v (v + h)) hint.integrableOn
              (integrable_const (φ rounded)).integrableOn measurableSet_Ioc
              (fun x hx => hA rounded x (by rw [← hv]; exact hx.1) (by rw [← hv]; exact hx.2))
            simpa [mul_comm] using this
          have := j1 hA
          rw [hsplit]; linarith
        · have hb : μ.real (Ioc v (v + h)) * φ rounded ≤ ∫ x in Ioc v (v + h), f x ∂μ := by
            have := setIntegral_mono_on (μ := μ) (s := Ioc v (v + h)) (integrable_const (φ rounded)).integrableOn
              hint.integrableOn measurableSet_Ioc
              (fun x hx => hB rounded x (by rw [← hv]; exact hx.1) (by rw [← hv]; exact hx.2))
            simpa [mul_comm] using this
          have := j2 hB
          rw [hsplit]; linarith
    · rw [Option.some.injEq] at hr; subst hr
      refine ⟨id, id, fun k hk => Or.inl hk, fun f φ hf h0 h1 => ⟨fun _ => ?_, fun _ => ?_⟩⟩
      · have hi : ∫ x in Ioi v, f x ∂μ ≤ μ.real (Ioi v) := by
          have := setIntegral_mono_on (μ := μ) (s := Ioi v) (integrable_unit hf h0 h1).integrableOn
            (integrable_const (1 : ℝ)).integrableOn measurableSet_Ioi (fun x _ => h1 x)
          simpa using this
        have : μ.real (Iic v) + μ.real (Ioi v) = μ.real univ := by
          rw [← measureReal_union (Iic_disjoint_Ioi le_rfl) measurableSet_Ioi, Iic_union_Ioi]
        rw [not_lt] at hc
        simp only [sub_self, add_zero]; linarith
      · rw [sub_self]; exact setIntegral_nonneg measurableSet_Ioi (fun x _ => h0 x)

lemma cdfDown_spec {h t s : ℝ} (hh : 0 < h) {fuel : ℕ} {rounded : ℤ} {v : ℝ}
    (hv : v = rounded * h - s + h) {d d' : PyDict} (hk : ∀ k ∈ d.keys, rounded < k)
    (hr : cdfDown (fun x => μ.real (Iic x)) h t rounded fuel v d = some d') :
    (d.keys.Nodup → d'.keys.Nodup) ∧ ((∀ x ∈ d, 0 ≤ x.2) → ∀ x ∈ d', 0 ≤ x.2) ∧
    (∀ (f : ℝ → ℝ) (φ : ℤ → ℝ), Measurable f → (∀ x, 0 ≤ f x) → (∀ x, f x ≤ 1) →
      ((∀ (k : ℤ) (x : ℝ), k * h - s < x → x ≤ k * h - s + h → f x ≤ φ k) →
        ∫ x in Iic v, f x ∂μ ≤ t / 2 + (expect d' φ - expect d φ)) ∧
      ((∀ (k : ℤ) (x : ℝ), k * h - s < x → x ≤ k * h - s + h → φ k ≤ f x) →
        expect d' φ - expect d φ ≤ ∫ x in Iic v, f x ∂μ)) := by
  have base : ∀ (v : ℝ) (d : PyDict), ¬ μ.real (Iic v) > t / 2 →
      (∀ (f : ℝ → ℝ) (φ : ℤ → ℝ), Measurable f → (∀ x, 0 ≤ f x) → (∀ x, f x ≤ 1) →
        (∫ x in Iic v, f x ∂μ ≤ t / 2 + (expect d φ - expect d φ)) ∧
        (expect d φ - expect d φ ≤ ∫ x in Iic v, f x ∂μ)) := by
    intro v d hc f φ hf h0 h1
    constructor
    · have hi : ∫ x in Iic v, f x ∂μ ≤ μ.real (Iic v) := by
        have := setIntegral_mono_on (μ := μ) (s := Iic v) (integrable_unit hf h0 h1).integrableOn
          (integrable_const (1 : ℝ)).integrableOn measurableSet_Iic (fun x _ => h1 x)
        simpa using this
      rw [gt_iff_lt, not_lt] at hc
      simp only [sub_self, add_zero]; linarith
    · rw [sub_self]; exact setIntegral_nonneg measurableSet_Iic (fun x _ => h0 x)
  induction fuel generalizing rounded v d with
  | zero =>
    rw [cdfDown] at hr
    split_ifs at hr with hc
    rw [Option.some.injEq] at hr; subst hr
    exact ⟨id, id, fun f φ hf h0 h1 => ⟨fun _ => (base v d hc f φ hf h0 h1).1, fun _ => (base v d hc f φ hf h0 h1).2⟩⟩
  | succ fuel ih =>
    rw [cdfDown] at hr
    split_ifs at hr with hc
    · have hkn : rounded ∉ d.keys := fun hm => lt_irrefl _ (hk _ hm)
      have hv' : v - h = ((rounded - 1 : ℤ) : ℝ) * h - s + h := by push_cast; rw [hv]; ring
      have hle : v - h ≤ v := by linarith
      have hm : μ.real (Iic v) - μ.real (Iic (v - h)) = μ.real (Ioc (v - h) v) := cdf_sub (v - h) v hle
      obtain ⟨i1, i2, i4⟩ := ih hv' (d := d.set rounded (μ.real (Iic v) - μ.real (Iic (v - h))))
        (fun k hk' => by
          rcases (PyDict.mem_keys_set _ _ _ _).1 hk' with rfl | h1
          · omega
          · have := hk k h1; omega) hr
      refine ⟨fun hd => i1 (PyDict.nodup_set hd _ _), fun hd => i2 (PyDict.set_nonneg hd _ ?_), fun f φ hf h0 h1 => ?_⟩
      · rw [hm]; exact measureReal_nonneg
      · obtain ⟨j1, j2⟩ := i4 f φ hf h0 h1
        rw [expect_set_fresh hkn, hm] at j1 j2
        have hint := integrable_unit (μ := μ) hf h0 h1
        have hsplit : ∫ x in Iic v, f x ∂μ = ∫ x in Iic (v - h), f x ∂μ + ∫ x in Ioc (v - h) v, f x ∂μ := by
          rw [← Iic_union_Ioc_eq_Iic hle, setIntegral_union (Iic_disjoint_Ioc le_rfl) measurableSet_Ioc
            hint.integrableOn hint.integrableOn]
        have hv2 : (rounded : ℝ) * h - s = v - h := by rw [hv]; ring
        refine ⟨fun hA => ?_, fun hB => ?_⟩
        · have hb : ∫ x in Ioc (v - h) v, f x ∂μ ≤ μ.real (Ioc (v - h) v) * φ rounded := by
            have := setIntegral_mono_on (μ := μ) (s := Ioc (v - h) v) hint.integrableOn
              (integrable_const (φ rounded)).integrableOn measurableSet_Ioc
              (fun x hx => hA rounded x (by rw [hv2]; exact hx.1) (by rw [hv2]; linarith [hx.2]))
            simpa [mul_comm] using this
          have := j1 hA
          rw [hsplit]; linarith
        · have hb : μ.real (Ioc (v - h) v) * φ rounded ≤ ∫ x in Ioc (v - h) v, f x ∂μ := by
            have := setIntegral_mono_on (μ := μ) (s := Ioc (v - h) v) (integrable_const (φ rounded)).integrableOn
              hint.integrableOn measurableSet_Ioc
              (fun x hx => hB rounded x (by rw [hv2]; exact hx.1) (by rw [hv2]; linarith [hx.2]))
            simpa [mul_comm] using this
          have := j2 hB
          rw [hsplit]; linarith
    · rw [Option.some.injEq] at hr; subst hr
      exact ⟨id, id, fun f φ hf h0 h1 => ⟨fun _ => (base v d hc f φ hf h0 h1).1, fun _ => (base v d hc f φ hf h0 h1).2⟩⟩

lemma createFromCdf_spec {h t inf : ℝ} (hh : 0 < h) (ht : 0 ≤ t) (hmass : μ.real univ + inf = 1) {fuel : ℕ} {pess : Bool}
    {r : Except Err Pld} (hr : createFromCdf fuel (fun x => μ.real (Iic x)) pess h t = some r) :
    ∃ m : Pmf, r = .ok (mk' m none) ∧ m.WF ∧ m.disc = h ∧ m.pessimistic = pess ∧
      m.infinityMass = (if pess then t else 0) ∧ m.NonNeg ∧
      (∀ (f : ℝ → ℝ) (φ : ℤ → ℝ), Measurable f → (∀ x, 0 ≤ f x) → (∀ x, f x ≤ 1) →
        ((∀ (k : ℤ) (x : ℝ), k * h - (if pess then h else 0) < x → x ≤ k * h - (if pess then h else 0) + h → f x ≤ φ k) →
          inf + ∫ x, f x ∂μ ≤ t + expect m.points φ) ∧
        ((∀ (k : ℤ) (x : ℝ), k * h - (if pess then h else 0) < x → x ≤ k * h - (if pess then h else 0) + h → φ k ≤ f x) →
          expect m.points φ ≤ ∫ x, f x ∂μ)) := by
  unfold createFromCdf at hr
  cases h1 : cdfUp (fun x => μ.real (Iic x)) h t (if pess then 1 else 0) fuel 0 [] with
  | none => rw [h1] at hr; simp at hr
  | some d1 =>
    rw [h1] at hr
    simp only [] at hr
    cases h2 : cdfDown (fun x => μ.real (Iic x)) h t (if pess then 0 else -1) fuel 0 d1 with
    | none => rw [h2] at hr; simp at hr
    | some d2 =>
      rw [h2] at hr
      simp only [Option.some.injEq] at hr
      obtain ⟨u1, u2, u3, u4⟩ := cdfUp_spec (s := if pess then h else 0) hh hmass
        (by cases pess <;> simp) (by simp [PyDict.keys]) h1
      obtain ⟨w1, w2, w4⟩ := cdfDown_spec (s := if pess then h else 0) hh
        (by cases pess <;> simp) (fun k hk => by
          rcases u3 k hk with h | h
          · simp [PyDict.keys] at h
          · cases pess <;> simp at h ⊢ <;> omega) h2
      have hn := w1 (u1 (by simp [PyDict.keys]))
      have hp := w2 (u2 (by simp))
      obtain ⟨m, g, g1, g2, g3, g4, g5, g6, _⟩ := createFromRounded_symm (inf := if pess then t else 0) (pess := pess) hn hh
      have g7 : m.NonNeg := g6 (by split_ifs <;> simp [ht]) hp
      refine ⟨m, ?_, g1, g2, g4, g3, g7, fun f φ hf h0 h1 => ?_⟩
      · rw [← hr, g]
      · obtain ⟨a1, a2⟩ := u4 f φ hf h0 h1
        obtain ⟨b1, b2⟩ := w4 f φ hf h0 h1
        have hint := integrable_unit (μ := μ) hf h0 h1
        have hsplit : ∫ x, f x ∂μ = ∫ x in Iic 0, f x ∂μ + ∫ x in Ioi 0, f x ∂μ := by
          rw [← setIntegral_univ, ← Iic_union_Ioi (a := (0 : ℝ)), setIntegral_union (Iic_disjoint_Ioi le_rfl)
            measurableSet_Ioi hint.integrableOn hint.integrableOn]
        rw [g5]
        have e0 : expect ([] : PyDict) φ = 0 := rfl
        rw [e0] at a1 a2
        refine ⟨fun hA => ?_, fun hB => ?_⟩
        · have := a1 hA; have := b1 hA; rw [hsplit]; linarith
        · have := a2 hB; have := b2 hB; rw [hsplit]; linarith
end

/-! ### termination of the loops of create_from_cdf -/

lemma cdfUp_ok {cdf : ℝ → ℝ} {h t : ℝ} {n : ℕ} : ∀ {fuel : ℕ} {rounded : ℤ} {v : ℝ} {d : PyDict}, n ≤ fuel →
    1 - t / 2 ≤ cdf (v + n * h) → ∃ d', cdfUp cdf h t rounded fuel v d = some d' := by
  induction n with
  | zero =>
    intro fuel rounded v d _ hc
    have hc' : 1 - t / 2 ≤ cdf v := by simpa only [Nat.cast_zero, zero_mul, add_zero, sub_zero] using hc
    cases fuel <;> rw [cdfUp, if_neg (not_lt.2 hc')] <;> exact ⟨d, rfl⟩
  | succ n ih =>
    intro fuel rounded v d hf hc
    obtain ⟨f, rfl⟩ : ∃ f, fuel = f + 1 := ⟨fuel - 1, by omega⟩
    rw [cdfUp]
    split_ifs with h1
    · refine ih (by omega) ?_
      have : v + h + n * h = v + ((n + 1 : ℕ) : ℝ) * h := by push_cast; ring
      rwa [this]
    · exact ⟨d, rfl⟩

lemma cdfDown_ok {cdf : ℝ → ℝ} {h t : ℝ} {n : ℕ} : ∀ {fuel : ℕ} {rounded : ℤ} {v : ℝ} {d : PyDict}, n ≤ fuel →
    cdf (v - n * h) ≤ t / 2 → ∃ d', cdfDown cdf h t rounded fuel v d = some d' := by
  induction n with
  | zero =>
    intro fuel rounded v d _ hc
    have hc' : cdf v ≤ t / 2 := by simpa only [Nat.cast_zero, zero_mul, add_zero, sub_zero] using hc
    cases fuel <;> rw [cdfDown, if_neg (not_lt.2 hc')] <;> exact ⟨d, rfl⟩
  | succ n ih =>
    intro fuel rounded v d hf hc
    obtain ⟨f, rfl⟩ : ∃ f, fuel = f + 1 := ⟨fuel - 1, by omega⟩
    rw [cdfDown]
    split_ifs with h1
    · refine ih (by omega) ?_
      have : v - h - n * h = v - ((n + 1 : ℕ) : ℝ) * h := by push_cast; ring
      rwa [this]
    · exact ⟨d, rfl⟩

lemma cdfUp_diverges {cdf : ℝ → ℝ} {h t : ℝ} (hc : ∀ x, cdf x < 1 - t / 2) (fuel : ℕ) :
    ∀ (rounded : ℤ) (v : ℝ) (d : PyDict), cdfUp cdf h t rounded fuel v d = none := by
  induction fuel with
  | zero => intro r v d; rw [cdfUp, if_pos (hc v)]
  | succ f ih => intro r v d; rw [cdfUp, if_pos (hc v)]; exact ih _ _ _

lemma cdf_atTop (μ : Measure ℝ) [IsFiniteMeasure μ] :
    Filter.Tendsto (fun x => μ.real (Iic x)) Filter.atTop (nhds (μ.real univ)) :=
  (ENNReal.tendsto_toReal (measure_ne_top μ _)).comp (tendsto_measure_Iic_atTop μ)

lemma cdf_atBot (μ : Measure ℝ) [IsFiniteMeasure μ] :
    Filter.Tendsto (fun x => μ.real (Iic x)) Filter.atBot (nhds 0) := by
  have h1 : Filter.Tendsto (fun x => μ.real (Ici x)) Filter.atBot (nhds (μ.real univ)) :=
    (ENNReal.tendsto_toReal (measure_ne_top μ _)).comp (tendsto_measure_Ici_atBot μ)
  have h2 : Filter.Tendsto (fun x => μ.real univ - μ.real (Ici (x + 1))) Filter.atBot (nhds (μ.real univ - μ.real univ)) :=
    tendsto_const_nhds.sub (h1.comp (Filter.tendsto_atBot_add_const_right _ 1 Filter.tendsto_id))
  rw [sub_self] at h2
  refine squeeze_zero (fun x => measureReal_nonneg) (fun x => ?_) h2
  have : μ.real (Iic x) + μ.real (Ici (x + 1)) ≤ μ.real univ := by
    rw [← measureReal_union (by
      rw [Set.disjoint_left]; intro y hy hy'; simp only [mem_Iic, mem_Ici] at hy hy'; linarith) measurableSet_Ici]
    exact measureReal_mono (subset_univ _)
  linarith

lemma createFromCdf_terminates (μ : Measure ℝ) [IsFiniteMeasure μ] {h t : ℝ} (hh : 0 < h) (ht : 0 < t)
    (hm : 1 - t / 2 < μ.real univ) (pess : Bool) :
    ∃ N, ∀ fuel, N ≤ fuel → ∃ r, createFromCdf fuel (fun x => μ.real (Iic x)) pess h t = some r := by
  obtain ⟨a, ha⟩ := Filter.eventually_atTop.1 ((cdf_atTop μ).eventually (eventually_gt_nhds hm))
  obtain ⟨b, hb⟩ := Filter.eventually_atBot.1 ((cdf_atBot μ).eventually (eventually_lt_nhds (by linarith : (0:ℝ) < t / 2)))
  obtain ⟨n1, hn1⟩ := exists_nat_ge (a / h)
  obtain ⟨n2, hn2⟩ := exists_nat_ge (-b / h)
  rw [div_le_iff₀ hh] at hn1 hn2
  refine ⟨max n1 n2, fun fuel hf => ?_⟩
  obtain ⟨d1, h1⟩ := cdfUp_ok (cdf := fun x => μ.real (Iic x)) (h := h) (t := t) (rounded := if pess then 1 else 0) (v := 0)
    (d := []) (le_trans (le_max_left n1 n2) hf) (ha _ (by linarith)).le
  obtain ⟨d2, h2⟩ := cdfDown_ok (cdf := fun x => μ.real (Iic x)) (h := h) (t := t) (rounded := if pess then 0 else -1) (v := 0)
    (d := d1) (le_trans (le_max_right n1 n2) hf) (hb _ (by linarith)).le
  unfold createFromCdf
  rw [h1]; simp only; rw [h2]
  exact ⟨_, rfl⟩

end Verif.Pld
