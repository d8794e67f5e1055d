import Verif.Proofs.SelectSound

/-!
# C44, C66: `RepeatAndSelectDpEvent`

`Spec.repeatSelect p score P` is the distribution of the best of a random number of runs (`Verif/Spec/RepeatSelect.lean`).
-/

namespace Verif.Props
open Verif Verif.Spec Verif.RepeatSelect MeasureTheory

/-- **C44, the search ends.** For every shape and every finite mean at least one the bisection ends without an exception: after some
number of steps its condition does not hold any more. -/
theorem C44_gamma_terminates (shape mean : ℝ) (hs : 0 ≤ shape) (hm : 1 ≤ mean) :
    ∃ k s, gammaIter shape mean k = .ok s ∧ GammaDone (.ok s) ∧ 0 < s.1 ∧ s.1 < s.2 ∧ s.2 ≤ 1 := by
  obtain ⟨k, hk⟩ := gamma_done hs hm
  obtain ⟨s, he, hi⟩ := gammaIter_inv hs hm k
  rw [he] at hk
  have hG : 0 < min 1 (2 * (shape + 1) / mean) / 2 ^ k := by
    have : 0 < min 1 (2 * (shape + 1) / mean) := lt_min one_pos (by positivity)
    positivity
  have hgap := hi.gap
  refine ⟨k, s, he, hk, ?_, by linarith, hi.hi⟩
  rcases lt_or_eq_of_le hi.lo with h | h
  · exact h
  · exfalso
    have hd' : ¬ s.2 > s.1 * (1 + 1e-9) := hk
    rw [← h] at hd' hgap
    simp only [zero_mul, sub_zero, gt_iff_lt, not_lt] at hd' hgap
    linarith

/-- **C44, a parameter is returned.** -/
theorem C44_gamma_total (shape m : ℝ) (mean : PyNum) (hm : mean.real? = some m) (hs : 0 ≤ shape) (h1 : 1 ≤ m) : ∃ g, gammaTnb shape mean = .ok g :=
  gammaTnb_total hm (val_real hm) hs h1

/-- **C44, the returned parameter is conservative and accurate.** It is in `(0, 1]`; the mean of the distribution with this parameter
is at least the requested one, up to the error `1e-97` of the Taylor expansions, and exactly if `SelectExact`; if `γ` is the
parameter with exactly the requested mean, the answer is within the documented relative tolerance (twice `1e-9`) below `γ`. -/
theorem C44_gamma_conservative (shape m g : ℝ) (mean : PyNum) (hm : mean.real? = some m) (h : gammaTnb shape mean = .ok g) :
    0 < g ∧ g ≤ 1 ∧ m ≤ Spec.tnbMean shape g * (1 + 1e-97) ∧ (SelectExact shape m → m ≤ Spec.tnbMean shape g) ∧
      ∀ γ, 0 < γ → γ ≤ 1 → Spec.tnbMean shape γ = m → Real.log g ≤ Real.log γ + 2e-97 ∧ Real.log γ ≤ Real.log g + 2e-9 := by
  obtain ⟨hs, hm1, h0, h1, ⟨gm, hgm, hle⟩, hor⟩ := gammaTnb_spec hm (val_real hm) h
  obtain ⟨-, -, -, hacc⟩ := tnbMean_acc hgm
  refine ⟨h0, h1, ?_, fun hex => ?_, fun γ g0 g1 hγ => gammaTnb_close hm (val_real hm) h g0 g1 hγ⟩
  · rw [mul_add, mul_one]
    have := (abs_le.1 hacc).2
    linarith
  · have he : RepeatSelect.tnbMean g shape = .ok (Spec.tnbMean shape g) := by
      refine tnbMean_exact h0 h1 ?_
      rcases hex with rfl | ⟨hb, hex⟩
      · exact Or.inl rfl
      · rcases hor with ⟨rfl, -⟩ | ⟨hgb, -⟩
        · exact Or.inl rfl
        · refine Or.inr ⟨hgb.trans_lt hb, ?_⟩
          rcases hex with rfl | hex
          · exact Or.inl rfl
          · refine Or.inr ⟨lt_of_le_of_ne hs ?_, lt_of_le_of_lt ?_ hex⟩
            · rintro rfl; norm_num at hex
            · exact mul_le_mul_of_nonneg_left (Real.log_le_log h0 hgb) hs
    rw [he] at hgm
    cases hgm
    exact hle

/-- **C44, monotonisation.** For a finite shape, the value at order `i` is the least of the bounds
`rdp[j] + log(mean) / (order[j] - 1) + c` over the orders `order[j] ≥ order[i]` (`c` depends on neither `i` nor `j`; no bound for order
one): updating the array in place makes no difference. Hence it is at most the bound for `i` itself, and non-decreasing in the
order. -/
theorem C44_monotone {n : ℕ} (orders : Fin n → ℝ) (rdp out : Arr n) (mean shape : PyNum) (s : ℝ) (hs : shape.real? = some s)
    (h : repeatAndSelect orders rdp mean shape = .ok out) :
    ∃ (g m : ℝ), gammaTnb s mean = .ok g ∧ mean.real? = some m ∧
      (∀ i, IsLeast {v : EReal | ∃ j, orders i ≤ orders j ∧
        v = if orders j > 1 then rdp j + ((Real.log m / (orders j - 1) : ℝ) : EReal) + constTerm orders rdp s g else ⊤} (out i)) ∧
      ∀ i j, orders i ≤ orders j → out i ≤ out j := by
  obtain ⟨g, m, hg, hm, -, rfl⟩ := repeatAndSelect_tnb orders hs h
  refine ⟨g, m, hg, hm, fun i => ⟨?_, ?_⟩, fun i j hij => ?_⟩
  · obtain ⟨j, hj, he⟩ := monoAll_attained orders (perOrder orders rdp m (constTerm orders rdp s g)) i
    exact ⟨j, hj, he⟩
  · rintro v ⟨j, hj, rfl⟩
    exact monoAll_le orders (perOrder orders rdp m (constTerm orders rdp s g)) hj
  · obtain ⟨k, hk, he⟩ := monoAll_attained orders (perOrder orders rdp m (constTerm orders rdp s g)) j
    rw [he]
    exact monoAll_le orders _ (hij.trans hk)

/-- **C44, no exception.** For a non-empty list of orders, a finite shape and a finite mean at least one, `_compute_rdp_repeat_and_select`
returns. -/
theorem C44_total {n : ℕ} (hn : 0 < n) (orders : Fin n → ℝ) (rdp : Arr n) (mean shape : PyNum) (s m : ℝ) (hs : shape.real? = some s)
    (hm : mean.real? = some m) (hs0 : 0 ≤ s) (hm1 : 1 ≤ m) : ∃ out, repeatAndSelect orders rdp mean shape = .ok out := by
  obtain ⟨g, hg⟩ := C44_gamma_total s m mean hm hs0 hm1
  have hg0 := (C44_gamma_conservative s m g mean hm hg).1
  unfold repeatAndSelect
  rw [if_neg (by rw [val_real hs, not_lt]; exact_mod_cast hs0), if_neg (by rw [val_real hm, not_lt]; exact_mod_cast hm1), hs]
  simp only [hg]
  rw [if_neg (not_le.2 hg0), if_neg hn.ne', hm]
  exact ⟨_, rfl⟩

/-- **C44 fails for the Poisson distribution.** That branch does not apply monotonicity: at order one the answer is infinite although it
is finite at order two. -/
theorem C44_poisson_monotone_violated :
    ∃ (orders : Fin 2 → ℝ) (rdp out : Arr 2), orders 0 ≤ orders 1 ∧ repeatAndSelect orders rdp (.float 1) .inf = .ok out ∧ ¬ out 0 ≤ out 1 := by
  refine ⟨![1, 2], fun _ => 0, ![⊤, 0], by norm_num, ?_, ?_⟩
  · have hd : ∀ e : ℝ, 0 ≤ e → RdpConv.computeDelta (List.ofFn (![1, 2] : Fin 2 → ℝ)) (List.ofFn fun _ : Fin 2 => (0 : EReal)) e = .ok (0, 1) := by
      intro e he
      have h1 : RdpConv.logDelta 1 0 e = ⊥ := by
        unfold RdpConv.logDelta
        rw [if_neg (by norm_num)]
        simp
      have h2 : RdpConv.logDelta 2 0 e = ⊥ := by
        unfold RdpConv.logDelta
        rw [if_pos (by norm_num)]
        simp
      unfold RdpConv.computeDelta
      rw [if_neg (not_lt.2 he)]
      simp [RdpConv.logDeltas, RdpConv.argmin, h1, h2, RdpConv.mexp]
    unfold repeatAndSelect
    rw [if_neg (by simp [PyNum.val]), if_neg (by simp [PyNum.val])]
    have e0 : poissonEntry ![1, 2] (fun _ => 0) (.float 1) 0 = .ok ⊤ := by simp [poissonEntry]
    have e1 : poissonEntry ![1, 2] (fun _ => 0) (.float 1) 1 = .ok 0 := by
      unfold poissonEntry
      rw [if_neg (by norm_num), hd _ (Real.log_nonneg (by norm_num))]
      simp [PyNum.real?]
    simp only [PyNum.real?]
    unfold Rdp.collect
    simp only [List.ofFn_succ, e0, List.ofFn_zero, Fin.succ_zero_eq_one, e1, List.findSome?]
    congr 1
    funext i
    fin_cases i
    · simp [e0]
    · simp [e1]
  · simp

/-- **C66, truncated negative binomial.** Let the single run of a mechanism have output distributions `P`, `Q` on two neighbouring data
sets, with Rényi divergences at most `rdp` in both directions. If the number of runs is drawn from the truncated negative binomial
distribution with the given shape and mean, then the values returned by `_compute_rdp_repeat_and_select` bound the Rényi divergence
of the best run, whatever the score. -/
theorem C66_repeat_select_sound {n : ℕ} (orders : Fin n → ℝ) (ho : ∀ i, 1 ≤ orders i) (rdp out : Arr n) (mean shape : PyNum) (s m γ : ℝ)
    (hs : shape.real? = some s) (hm : mean.real? = some m) (hex : SelectExact s m) (h : repeatAndSelect orders rdp mean shape = .ok out)
    (h0 : 0 < γ) (h1 : γ ≤ 1) (hγ : Spec.tnbMean s γ = m) {Y : Type*} [MeasurableSpace Y] (score : Y → ℝ) (hsc : Measurable score)
    (P Q : Measure Y) [IsProbabilityMeasure P] [IsProbabilityMeasure Q] (hPQ : ∀ i, renyiDiv (orders i) P Q ≤ rdp i)
    (hQP : ∀ i, renyiDiv (orders i) Q P ≤ rdp i) (i : Fin n) :
    renyiDiv (orders i) (repeatSelect (tnb s γ) score P) (repeatSelect (tnb s γ) score Q) ≤ out i := by
  have := repeatAndSelect_sound orders ho hs hm h h0 h1 hγ le_rfl (fun g hg => ?_) (val_real hm) hsc P Q hPQ hQP i
  · simpa using this
  · obtain ⟨hg0, hg1, -, hc, -⟩ := C44_gamma_conservative s m g mean hm hg
    have hs0 := (gammaTnb_spec hm (val_real hm) hg).1
    have := gamma_le hs0 hg0 hg1 h0 le_rfl (by rw [hγ]; simpa using hc hex)
    linarith

/-- **C66, all shapes.** Without the restriction to `SelectExact` the bound holds up to `2e-97 * (1 + shape)`, the effect of the truncated
Taylor expansions. -/
theorem C66_repeat_select_accuracy {n : ℕ} (orders : Fin n → ℝ) (ho : ∀ i, 1 ≤ orders i) (rdp out : Arr n) (mean shape : PyNum) (s m γ : ℝ)
    (hs : shape.real? = some s) (hm : mean.real? = some m) (h : repeatAndSelect orders rdp mean shape = .ok out)
    (h0 : 0 < γ) (h1 : γ ≤ 1) (hγ : Spec.tnbMean s γ = m) {Y : Type*} [MeasurableSpace Y] (score : Y → ℝ) (hsc : Measurable score)
    (P Q : Measure Y) [IsProbabilityMeasure P] [IsProbabilityMeasure Q] (hPQ : ∀ i, renyiDiv (orders i) P Q ≤ rdp i)
    (hQP : ∀ i, renyiDiv (orders i) Q P ≤ rdp i) (i : Fin n) :
    renyiDiv (orders i) (repeatSelect (tnb s γ) score P) (repeatSelect (tnb s γ) score Q) ≤ out i + (((1 + s) * 2e-97 : ℝ) : EReal) :=
  repeatAndSelect_sound orders ho hs hm h h0 h1 hγ (by norm_num)
    (fun _ hg => ((C44_gamma_conservative s m _ mean hm hg).2.2.2.2 γ h0 h1 hγ).1) (val_real hm) hsc P Q hPQ hQP i

/-- **C66, Poisson.** Likewise for a Poisson number of runs (`shape` is infinite). -/
theorem C66_repeat_select_poisson {n : ℕ} (orders : Fin n → ℝ) (rdp out : Arr n) (mean : PyNum) (m : ℝ) (hm : mean.real? = some m)
    (h : repeatAndSelect orders rdp mean .inf = .ok out) {Y : Type*} [MeasurableSpace Y] (score : Y → ℝ) (hsc : Measurable score)
    (P Q : Measure Y) [IsProbabilityMeasure P] [IsProbabilityMeasure Q] (hPQ : ∀ i, renyiDiv (orders i) P Q ≤ rdp i)
    (hQP : ∀ i, renyiDiv (orders i) Q P ≤ rdp i) (i : Fin n) :
    renyiDiv (orders i) (repeatSelect (poisson m) score P) (repeatSelect (poisson m) score Q) ≤ out i :=
  repeatAndSelect_poisson orders rfl hm (val_real hm) h hsc P Q hPQ hQP i

/-- **C66, the distributions exist.** For every shape and finite mean at least one there is exactly one truncated negative binomial
distribution with that mean. -/
theorem C66_parameter_unique (s m : ℝ) (hs : 0 ≤ s) (hm : 1 ≤ m) : ∃! γ, 0 < γ ∧ γ ≤ 1 ∧ Spec.tnbMean s γ = m :=
  gamma_unique hs hm

/-- A concrete case: the best of a geometric number of runs, on average ten, of a mechanism that answers a query with Gaussian noise,
for two orders. All assumptions of `C66_repeat_select_sound` are met. -/
example : ∃ (rdp out : Arr 2), repeatAndSelect ![2, 8] rdp (.float 10) (.int 1) = .ok out ∧ SelectExact 1 10 ∧
    Spec.tnbMean 1 (1 / 10) = 10 ∧
    (∀ i, renyiDiv ((![2, 8] : Fin 2 → ℝ) i) (ProbabilityTheory.gaussianReal 0 1) (ProbabilityTheory.gaussianReal 1 1) ≤ rdp i) ∧
    ∀ i, renyiDiv ((![2, 8] : Fin 2 → ℝ) i) (ProbabilityTheory.gaussianReal 1 1) (ProbabilityTheory.gaussianReal 0 1) ≤ rdp i := by
  set P := ProbabilityTheory.gaussianReal 0 1
  set Q := ProbabilityTheory.gaussianReal 1 1
  obtain ⟨out, h⟩ := C44_total (by norm_num) ![2, 8]
    (fun i => max (renyiDiv ((![2, 8] : Fin 2 → ℝ) i) P Q) (renyiDiv ((![2, 8] : Fin 2 → ℝ) i) Q P)) (.float 10) (.int 1) 1 10
    (by simp [PyNum.real?]) rfl (by norm_num) (by norm_num)
  refine ⟨_, out, h, Or.inl rfl, ?_, fun i => le_max_left _ _, fun i => le_max_right _ _⟩
  have h2 := tnbMean_exact (shape := 1) (gamma := 1 / 10) (by norm_num) (by norm_num) (Or.inl rfl)
  unfold RepeatSelect.tnbMean at h2
  rw [if_neg (by norm_num), if_neg (by norm_num), if_pos rfl] at h2
  rw [← Except.ok.inj h2]
  norm_num

/-- Logarithmic distributions of mean at least three are `SelectExact`. -/
example (m : ℝ) (hm : 3 ≤ m) : SelectExact 0 m := by
  refine Or.inr ⟨?_, Or.inl rfl⟩
  rw [div_lt_iff₀ (by linarith)]
  norm_num
  linarith

end Verif.Props
