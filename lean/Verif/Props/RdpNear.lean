import Verif.Spec.RdpNear
import Verif.Proofs.FracAccuracy
import Verif.Props.RdpFrac
import Verif.Props.RdpTight

/-!
# C62, C88: the values of the RDP accountant at fractional orders are close to the Rényi divergence

`sampledDiv q z α` (`Verif/Spec/RdpFrac.lean`) is the divergence of a Poisson-sampled Gaussian query; `fracExcess`, `eventExcess` and `RenyiNear`
are in `Verif/Spec/RdpNear.lean`; `rdpAfter`, `Adaptive`, `EventPair` as in C88.
-/

namespace Verif.Props
open Verif Verif.Spec Verif.Rdp Verif.RdpConv Verif.Frac MeasureTheory ProbabilityTheory

lemma fracFactor_nonneg {α : ℝ} (hα : 1 < α) : 0 ≤ 2 * Int.fract α * (1 - Int.fract α) / (⌈α⌉₊ * (α - 1)) := by
  have h1 := Int.fract_nonneg α
  have h2 := (Int.fract_lt_one α).le
  have : 0 < α - 1 := by linarith
  have : 0 ≤ 1 - Int.fract α := by linarith
  positivity

lemma fracExcess_nonneg {q p α s : ℝ} (h0 : 0 ≤ q) (h1 : q ≤ 1) (hα : 1 < α) : 0 ≤ fracExcess q p α s := by
  have := Real.rpow_nonneg (by linarith : 0 ≤ 1 - q) (α - s)
  have := Real.rpow_nonneg h0 s
  exact mul_nonneg (fracFactor_nonneg hα) (by positivity)

lemma moment_one_le {q z α : ℝ} (h0 : 0 < q) (h1 : q < 1) (hz : 0 < z) (hα : 1 < α) : 1 ≤ moment q z α := by
  obtain ⟨hp, hd⟩ := sampledDiv_eq h0 h1 hz hα
  have := gaussMix_prob h0.le h1.le (Real.toNNReal (z ^ 2))
  have h : 0 ≤ sampledDiv q z α := by
    unfold sampledDiv
    exact RdpConv.renyi_nonneg (P := gaussMix q (Real.toNNReal (z ^ 2))) hα.le
  rw [hd] at h
  have h2 : 0 ≤ Real.log (moment q z α) * (α - 1)⁻¹ := by exact_mod_cast h
  have h3 : 0 < (α - 1)⁻¹ := inv_pos.2 (by linarith)
  have h4 : 0 ≤ Real.log (moment q z α) := nonneg_of_mul_nonneg_left h2 h3
  exact (Real.log_nonneg_iff hp).1 h4

/-- **C62, accuracy for small sampling probabilities.** Where the series converges, its value is above the divergence by at most
`2 f (1-f) / (⌈α⌉ (α-1)) * (1-q)^(α-s) q^s exp(s (s-1) / (2 z²))` for every exponent `s` up to `⌈α⌉ + 1`. -/
theorem C62_series_accuracy_sampling (q z α s : ℝ) (sigma : PyNum) (h0 : 0 < q) (h1 : q < 1) (hz : 0 < z) (hs : sigma.val = (z : EReal))
    (hα : 1 < α) (hi : ¬ ∃ m : ℤ, α = m) (hfin : logAFrac q sigma α ≠ ⊤) (s0 : 0 ≤ s) (s1 : s ≤ ⌈α⌉₊ + 1) :
    logAFrac q sigma α * (((α - 1)⁻¹ : ℝ) : EReal) ≤ sampledDiv q z α + ((fracExcess q (1 / z ^ 2) α s : ℝ) : EReal) := by
  have hinv : 0 < (α - 1)⁻¹ := inv_pos.2 (by linarith)
  obtain ⟨hp, hd⟩ := sampledDiv_eq h0 h1 hz hα
  have hone := moment_one_le h0 h1 hz hα
  obtain ⟨hm0, hm1⟩ := ceil_facts hα hi
  rw [logAFrac_real hs] at hfin ⊢
  rcases frac_spec h0 h1 hz hi with h | ⟨N, hv, -, -⟩
  · exact absurd h hfin
  · have ht := total_pos h0 h1 hz α N
    have hl := lower_last h0 h1 hz (by linarith : 0 ≤ α) hm0 hm1 N
    have hb := halves_le (α := α) h0 h1 hz (k := ⌈α⌉₊ + 1) (s := s) (by push_cast; linarith) (by push_cast; exact s1)
    obtain ⟨m, hm⟩ : ∃ m, ⌈α⌉₊ = m + 2 := by
      have : 1 < ⌈α⌉₊ := Nat.lt_ceil.2 (by simpa using hα)
      exact ⟨⌈α⌉₊ - 2, by omega⟩
    have hf : Int.fract α = α - (m + 1) := by
      have : ⌊α⌋ = (m : ℤ) + 1 := by
        rw [Int.floor_eq_iff]
        rw [hm] at hm0 hm1
        push_cast at hm0 hm1 ⊢
        have : α ≠ m + 2 := fun h => hi ⟨(m : ℤ) + 2, by push_cast; exact h⟩
        have : α < m + 2 := lt_of_le_of_ne hm1 this
        constructor <;> linarith
      rw [Int.fract, this]; push_cast; ring
    have hc : |coef (α - 1) ⌈α⌉₊| ≤ Int.fract α * (1 - Int.fract α) / ⌈α⌉₊ := by
      rw [hm] at hm0 hm1 ⊢
      push_cast at hm0 hm1
      have := abs_coef_ceil (m := m) (α := α) (by linarith) hm1
      rw [hf]
      refine this.trans (le_of_eq ?_)
      push_cast; ring
    set X := (1 - q) ^ (α - s) * q ^ s * Real.exp ((s ^ 2 - s) / (2 * z ^ 2)) with hX
    have hX0 : 0 ≤ X := by
      have := Real.rpow_nonneg (by linarith : 0 ≤ 1 - q) (α - s)
      have := Real.rpow_nonneg h0.le s
      positivity
    have hMle : 2 * |coef (α - 1) ⌈α⌉₊| * (M0 q z α (⌈α⌉₊ + 1) + M1 q z α (⌈α⌉₊ + 1)) ≤ 2 * (Int.fract α * (1 - Int.fract α) / ⌈α⌉₊) * X := by
      refine mul_le_mul (by linarith) hb ?_ (by linarith [abs_nonneg (coef (α - 1) ⌈α⌉₊)])
      have := M0_pos h0 h1 hz α (⌈α⌉₊ + 1)
      have := M1_pos h0 h1 hz α (⌈α⌉₊ + 1)
      positivity
    set Y := 2 * (Int.fract α * (1 - Int.fract α) / ⌈α⌉₊) * X with hY
    have hY0 : 0 ≤ Y := by
      have h := Int.fract_nonneg α
      have h' : 0 ≤ 1 - Int.fract α := by linarith [(Int.fract_lt_one α).le]
      positivity
    have hlog : Real.log (total q z α N) ≤ Real.log (moment q z α) + Y := by
      have h2 : Real.log (total q z α N) ≤ Real.log (moment q z α * (1 + Y)) := by
        refine Real.log_le_log ht ?_
        nlinarith
      rw [Real.log_mul hp.ne' (by positivity)] at h2
      have h3 := Real.log_le_sub_one_of_pos (by positivity : 0 < 1 + Y)
      linarith
    rw [hv, hd, ← EReal.coe_add, ← EReal.coe_mul, EReal.coe_le_coe_iff]
    refine (mul_le_mul_of_nonneg_right hlog hinv.le).trans (le_of_eq ?_)
    have e1 : (s ^ 2 - s) / 2 * (1 / z ^ 2) = (s ^ 2 - s) / (2 * z ^ 2) := by ring
    rw [add_mul, hY, hX]
    unfold fracExcess
    rw [e1]
    have : α - 1 ≠ 0 := by linarith
    have hc0 : ((⌈α⌉₊ : ℕ) : ℝ) ≠ 0 := by rw [hm]; positivity
    congr 1
    field_simp

/-- The value of the Poisson-sampled Gaussian query at any order above one. -/
lemma poissonNear {α : ℝ} (hα : 1 < α) {sigma : PyNum} {z q : ℝ} (hs : sigma.val = (z : EReal)) (hz : 0 < z) (h0 : 0 < q) (h1 : q < 1)
    (hi : ¬ ∃ m : ℤ, α = m) {r : EReal} (hr : poissonOneOrder logAFrac q sigma (α : EReal) = .ok r) :
    r ≠ ⊥ ∧ (r ≠ ⊤ → ∀ s : ℝ, 0 ≤ s → s ≤ ⌈α⌉₊ + 1 → r ≤ sampledDiv q z α + ((fracExcess q (1 / z ^ 2) α s : ℝ) : EReal)) := by
  have hinv : 0 < (α - 1)⁻¹ := inv_pos.2 (by linarith)
  have hz0 : ¬ ((α : EReal) = ⊤ ∨ sigma.val = 0) := by
    rw [hs]; push Not; exact ⟨EReal.coe_ne_top _, by exact_mod_cast hz.ne'⟩
  have hne : ¬ (α : EReal) = 1 := by intro hc; exact hα.ne' (by exact_mod_cast hc)
  unfold poissonOneOrder at hr
  rw [if_neg h0.ne', if_neg hz0, if_neg h1.ne, if_neg hne, EReal.toReal_coe, logA, dif_neg hi, Except.ok.injEq] at hr
  subst hr
  refine ⟨?_, fun hfin s s0 s1 => C62_series_accuracy_sampling q z α s sigma h0 h1 hz hs hα hi ?_ s0 s1⟩
  · rw [logAFrac_real hs]
    rcases frac_spec h0 h1 hz hi with h | ⟨N, hv, -, -⟩
    · rw [h, EReal.top_mul_coe_of_pos hinv]; simp
    · rw [hv, ← EReal.coe_mul]; exact EReal.coe_ne_bot _
  · intro h
    rw [h, EReal.top_mul_coe_of_pos hinv] at hfin
    exact hfin rfl

lemma attains_mono {α : ℝ} {C : PairProp} {r r' : EReal} (h : Attains α C r) (hr : r' ≤ r) : Attains α C r' := by
  obtain ⟨Ω, _, P, Q, a, b, c, d⟩ := h
  exact ⟨Ω, _, P, Q, a, b, c, hr.trans d⟩

lemma eventExcess_nonneg {α : ℝ} (hα : 1 < α) (e : DpEvent) : 0 ≤ eventExcess α e := by
  cases e with
  | laplace z => simp only [eventExcess]; split_ifs <;> positivity
  | poissonSampled q e =>
    simp only [eventExcess]
    split_ifs with h
    · exact le_min (fracExcess_nonneg h.1.le h.2.le hα) (fracExcess_nonneg h.1.le h.2.le hα)
    · exact le_rfl
  | _ => exact le_rfl

lemma sub_excess {r x : EReal} {c : ℝ} (h : r ≤ x + (c : EReal)) : r + ((-c : ℝ) : EReal) ≤ x := by
  rw [EReal.coe_neg, ← sub_eq_add_neg]
  exact EReal.sub_le_of_le_add h

/-- One event: the value is not minus infinity, and if it is finite then some mechanism that the event describes has at least the value minus the
excess. -/
theorem atom_nearTight {n : ℕ} (orders : Fin n → ℝ) (ras : Arr n → PyNum → PyNum → Except Err (Arr n)) (nr : NeighborRel)
    (e : DpEvent) (he : RdpAccountant.Elementary e) (i : Fin n) (hα : 1 < orders i) (ht : RenyiNear e)
    (hok : RdpAccountant.Ok (fns (fun i => (orders i : EReal)) logAFrac (wor fun i => (orders i : EReal)) ras) nr e) :
    let v := (RdpAccountant.maybeCompose (fns (fun i => (orders i : EReal)) logAFrac (wor fun i => (orders i : EReal)) ras) nr e 1 true RdpAccountant.init).1 i
    v ≠ ⊥ ∧ (v ≠ ⊤ → Attains (orders i) (EventPair nr e) (v + ((-eventExcess (orders i) e : ℝ) : EReal))) := by
  suffices h : ∀ v, (RdpAccountant.maybeCompose (fns (fun i => (orders i : EReal)) logAFrac (wor fun i => (orders i : EReal)) ras) nr e 1 true RdpAccountant.init).1 i = v →
      v ≠ ⊥ ∧ (v ≠ ⊤ → Attains (orders i) (EventPair nr e) (v + ((-eventExcess (orders i) e : ℝ) : EReal))) from h _ rfl
  intro v hv0
  have hx := eventExcess_nonneg hα e
  by_cases htt : RenyiTight (orders i) e
  · have h := atom_attains orders logAFrac ras nr e he i hα htt hok
    rw [hv0] at h
    refine ⟨?_, fun _ => attains_mono h (sub_excess ?_)⟩
    · obtain ⟨Ω, _, P, Q, _, _, hC, -⟩ := h
      have h1 := atom_sound_base orders logAFrac ras nr e i (.inl htt) he (RenyiTight.covered htt) (RenyiTight.noRepeat htt) hok hα.le P Q hC
      rw [hv0] at h1
      have h2 := RdpConv.renyi_nonneg (P := P) (Q := Q) hα.le
      exact (lt_of_lt_of_le (EReal.bot_lt_coe 0) (h2.trans h1)).ne'
    · exact le_add_of_nonneg_right (by exact_mod_cast hx)
  · unfold RdpAccountant.Ok at hok
    unfold RdpAccountant.init at hv0
    cases e with
    | laplace z =>
      have hlt : orders i < 1.1 := by simpa [RenyiTight] using htt
      have hex : eventExcess (orders i) (.laplace z) = 10 ^ (-100 : ℤ) := by simp only [eventExcess, if_pos hlt]
      rw [hex]
      simp only [RdpAccountant.maybeCompose, if_true] at hok hv0
      simp only [EventPair]
      cases hrec : RdpAccountant.recip z with
      | error err => rw [hrec] at hok; simp at hok
      | ok eps =>
        rw [hrec] at hok
        simp only at hok
        obtain ⟨a, ha, hv⟩ := addTo_ok hok
        have hva : v = a i := by
          rw [← hv0, hrec]
          simp only
          rw [hv]
          simp only
          rw [value_eq _ _ (by simp)]
        rw [hva]
        have hr := collect_ok (show collect (fun i => laplaceRdp eps ((orders i : ℝ) : EReal)) = .ok a from ha) i
        rcases val_cases z with hz | ⟨x, hx⟩
        · rw [if_pos hz]
          have he0 : eps = 0 := by
            cases z with
            | int => simp [PyNum.val] at hz
            | float => simp [PyNum.val] at hz
            | inf => simpa [RdpAccountant.recip] using hrec.symm
          subst he0
          obtain ⟨r, d, h1, h2, h3, h4⟩ := C40_near_one 0 1 one_pos le_rfl (orders i) hα hlt
          have := Verif.Spec.laplace_prob 0 one_pos
          rw [zero_div, hr, Except.ok.injEq] at h1
          rw [RdpConv.renyi_self _ hα.le] at h2
          have hd : d = 0 := by exact_mod_cast h2.symm
          rw [h1]
          refine ⟨EReal.coe_ne_bot _, fun _ => attains_mono (same_attains (r := 0) hα rfl) (sub_excess ?_)⟩
          rw [hd] at h4
          rw [zero_add]
          exact_mod_cast (by linarith : r ≤ 10 ^ (-100 : ℤ))
        · rw [if_neg (by rw [hx]; exact EReal.coe_ne_top x), hx, EReal.toReal_coe]
          have he : x ≠ 0 ∧ eps = 1 / x := by
            cases z with
            | int k =>
              have : (k : ℝ) = x := by simpa [PyNum.val] using hx
              subst this
              simp only [RdpAccountant.recip] at hrec
              split_ifs at hrec with hk
              cases hrec
              exact ⟨by exact_mod_cast hk, rfl⟩
            | float y =>
              have : y = x := by simpa [PyNum.val] using hx
              subst this
              simp only [RdpAccountant.recip] at hrec
              split_ifs at hrec with hk
              cases hrec
              exact ⟨hk, rfl⟩
            | inf => simp [PyNum.val] at hx
          have hx0 : 0 < x := by
            by_contra hneg
            have : eps < 0 := by rw [he.2]; exact one_div_neg.2 (lt_of_le_of_ne (not_lt.1 hneg) he.1)
            rw [laplaceRdp, if_pos this] at hr
            cases hr
          obtain ⟨r, d, h1, h2, h3, h4⟩ := C40_near_one 1 x hx0 zero_le_one (orders i) hα hlt
          rw [← he.2, hr, Except.ok.injEq] at h1
          rw [h1]
          refine ⟨EReal.coe_ne_bot _, fun _ => attains_mono (laplace_attains hα hx0) (sub_excess ?_)⟩
          rw [h2, ← EReal.coe_add]
          exact_mod_cast h4
    | poissonSampled q e =>
      have hc : (∃ z, e = .gaussian z ∧ 0 < z.val ∧ z.val ≠ ⊤) ∨ FloatGaussians e := ht
      have hnat : ¬ ∃ m : ℤ, orders i = m := by
        rintro ⟨m, hm⟩
        refine htt ⟨⟨m.toNat, ?_⟩, hc⟩
        have : 1 < m := by rw [hm] at hα; exact_mod_cast hα
        have h2 : ((m.toNat : ℕ) : ℤ) = m := Int.toNat_of_nonneg (by omega)
        rw [hm]
        exact_mod_cast h2.symm
      rw [EventPair]
      obtain ⟨sigma, z, hen, hs, hz, hpos, hsum⟩ := effNoise_covered hc
      simp only [RdpAccountant.maybeCompose, hen, if_true] at hok hv0
      by_cases hnr : nr = .addOrRemoveOne ∨ nr = .replaceSpecial
      · rw [if_pos hnr] at hok
        obtain ⟨a, ha, hv⟩ := addTo_ok hok
        have hva : v = a i := by
          rw [← hv0, if_pos hnr, hv]
          simp only
          rw [value_eq _ _ (by simp)]
        rw [hva]
        obtain ⟨h0, h1, -, hr⟩ := poissonGaussian_ok (show poissonGaussian logAFrac _ _ _ = _ from ha) i
        have key := poisson_attains hα hpos hz hsum h0 h1
        rcases h0.eq_or_lt with hq | hq0
        · rw [poissonOneOrder, if_pos hq.symm, Except.ok.injEq] at hr
          rw [← hr]
          refine ⟨by simp, fun _ => attains_mono key (sub_excess ?_)⟩
          rw [← hq]
          have := gaussMix_prob (q := 0) le_rfl zero_le_one (Real.toNNReal (z ^ 2))
          exact add_nonneg (RdpConv.renyi_nonneg (P := gaussMix 0 (Real.toNNReal (z ^ 2))) hα.le) (by exact_mod_cast hx)
        rcases h1.eq_or_lt with hq | hq1
        · rw [hq] at hr key
          rw [C39_gaussian_exact logAFrac sigma z hs hz _ hα.le, Except.ok.injEq] at hr
          rw [← hr]
          have e1 : ENNReal.ofReal (1 - 1) • gaussianReal 0 (Real.toNNReal (z ^ 2)) + ENNReal.ofReal 1 • gaussianReal 1 (Real.toNNReal (z ^ 2)) =
              gaussianReal 1 (Real.toNNReal (z ^ 2)) := by simp
          rw [e1] at key
          rw [hq]
          refine ⟨?_, fun _ => attains_mono key (sub_excess (le_add_of_nonneg_right (by exact_mod_cast hx)))⟩
          have := RdpConv.renyi_nonneg (P := gaussianReal 1 (Real.toNNReal (z ^ 2))) (Q := gaussianReal 0 (Real.toNNReal (z ^ 2))) hα.le
          exact (lt_of_lt_of_le (EReal.bot_lt_coe 0) this).ne'
        obtain ⟨k1, k2⟩ := poissonNear hα hs hz hq0 hq1 hnat hr
        refine ⟨k1, fun hfin => attains_mono key (sub_excess ?_)⟩
        simp only [eventExcess, if_pos (And.intro hq0 hq1), ← hsum]
        rcases min_choice (fracExcess q.val.toReal (1 / z ^ 2) (orders i) 0) (fracExcess q.val.toReal (1 / z ^ 2) (orders i) (⌈orders i⌉₊ + 1)) with hmin | hmin
        · rw [hmin]; exact k2 hfin 0 le_rfl (by positivity)
        · rw [hmin]; exact k2 hfin _ (by positivity) le_rfl
      · rw [if_neg hnr] at hok; simp at hok
    | singleEpochTreeAggregation z s => exact absurd ht htt
    | repeatAndSelect => exact absurd ht (by simp [RenyiNear])
    | sampledWithoutReplacement => exact absurd ht (by simp [RenyiNear])
    | _ => exact absurd trivial htt

lemma sum_ne_top {l : List EReal} (h : ∀ x ∈ l, x ≠ ⊥) : l.sum ≠ ⊥ ∧ (l.sum ≠ ⊤ → ∀ x ∈ l, x ≠ ⊤) := by
  induction l with
  | nil => simp
  | cons a l ih =>
    obtain ⟨h1, h2⟩ := ih fun x hx => h x (by simp [hx])
    have ha := h a (by simp)
    rw [List.sum_cons]
    refine ⟨EReal.add_ne_bot_iff.2 ⟨ha, h1⟩, fun hs x hx => ?_⟩
    rcases List.mem_cons.1 hx with rfl | hx
    · rintro rfl
      exact hs (EReal.top_add_of_ne_bot h1)
    · refine h2 ?_ x hx
      rintro hl
      rw [hl] at hs
      exact hs (EReal.add_top_of_ne_bot ha)

/-- **C88, all orders.** After any accepted history, with the library's own series, a finite value at any order above one exceeds the Rényi
divergence of some mechanisms that the events describe, run one after the other, by at most the sum of the excesses of the events: nothing for
Gaussian noise, randomised response and trees; `1e-100` for Laplace noise at orders below 1.1; for Poisson samples nothing at integer orders and
at fractional ones a term of the order of `q^(⌈α⌉+1)`. Missing: samples without replacement, `RepeatAndSelect`. -/
theorem C88_near_tight_partial {n : ℕ} (orders : Fin n → ℝ) (nr : NeighborRel) (l : List (DpEvent × ℤ))
    (hl : ∀ p ∈ l, WfCounts p.1) (hacc : Accepted orders logAFrac nr l) (i : Fin n) (hα : 1 < orders i)
    (ht : ∀ e ∈ historyEvents l, RenyiNear e) (hfin : rdpAfter orders logAFrac nr l i ≠ ⊤) :
    ∃ (Ω : Type) (_ : MeasurableSpace Ω) (P Q : Measure Ω), Adaptive ((historyEvents l).map (EventPair nr)) Ω P Q ∧
      rdpAfter orders logAFrac nr l i ≤ renyiDiv (orders i) P Q + ((((historyEvents l).map (eventExcess (orders i))).sum : ℝ) : EReal) := by
  have hspec := (composeAll_spec (libFns orders logAFrac) nr l hl ⟨RdpAccountant.init, Builder.init⟩ Builder.inv_init).1.1 hacc
  have hmem : ∀ a ∈ historyEvents l, RdpAccountant.Elementary a ∧ RdpAccountant.Ok (libFns orders logAFrac) nr a := by
    intro a ha
    obtain ⟨p, hp, hap⟩ := List.mem_flatMap.1 ha
    have ha' := repeatList_mem hap
    exact ⟨RdpAccountant.elementary_of_mem _ _ ha', (hspec p hp).2.2 a ha'⟩
  have hval : rdpAfter orders logAFrac nr l i = ((historyEvents l).map fun a => RdpAccountant.curve (libFns orders logAFrac) nr a i).sum := by
    unfold rdpAfter
    rw [C10_rdp_additive (libFns orders logAFrac) nr l hl hacc]
    unfold totalRdp
    rw [sum_apply]
    rfl
  have hatom := fun a ha => atom_nearTight orders _ nr a (hmem a ha).1 i hα (ht a ha) (hmem a ha).2
  have hne := (sum_ne_top (l := (historyEvents l).map fun a => RdpAccountant.curve (libFns orders logAFrac) nr a i) (by
    intro x hx
    obtain ⟨a, ha, rfl⟩ := List.mem_map.1 hx
    exact (hatom a ha).1)).2 (by rw [← hval]; exact hfin)
  obtain ⟨Ω, _, P, Q, -, -, h1, h2⟩ := Attains.list hα ((historyEvents l).map fun a =>
      (EventPair nr a, RdpAccountant.curve (libFns orders logAFrac) nr a i + ((-eventExcess (orders i) a : ℝ) : EReal))) (by
    intro x hx
    obtain ⟨a, ha, rfl⟩ := List.mem_map.1 hx
    exact (hatom a ha).2 (hne _ (List.mem_map.2 ⟨a, ha, rfl⟩)))
  rw [List.map_map] at h1 h2
  refine ⟨Ω, _, P, Q, h1, ?_⟩
  rw [hval]
  have e : ((historyEvents l).map (Prod.snd ∘ fun a : DpEvent =>
      ((EventPair nr a, RdpAccountant.curve (libFns orders logAFrac) nr a i + ((-eventExcess (orders i) a : ℝ) : EReal)) : PairProp × EReal))).sum =
      ((historyEvents l).map fun a => RdpAccountant.curve (libFns orders logAFrac) nr a i).sum +
        ((-((historyEvents l).map (eventExcess (orders i))).sum : ℝ) : EReal) := by
    generalize historyEvents l = L
    induction L with
    | nil => simp
    | cons a L ih =>
      rw [List.map_cons, List.sum_cons, ih, List.map_cons, List.sum_cons, List.map_cons, List.sum_cons, neg_add, EReal.coe_add]
      simp only [Function.comp]
      exact add_add_add_comm _ _ _ _
  rw [e, EReal.coe_neg, ← sub_eq_add_neg] at h2
  exact (EReal.sub_le_iff_le_add (.inl (EReal.coe_ne_bot _)) (.inl (EReal.coe_ne_top _))).1 h2

/-- A concrete case: three Gaussian queries on Poisson samples, at the fractional order 5/2, with a series that converges. -/
example : ∃ (Ω : Type) (_ : MeasurableSpace Ω) (P Q : Measure Ω),
    Adaptive ((historyEvents [(.poissonSampled (.float (Real.exp (-80))) (.gaussian (.float 1)), 3)]).map (EventPair .addOrRemoveOne)) Ω P Q ∧
      rdpAfter (fun _ : Fin 1 => 5 / 2) logAFrac .addOrRemoveOne [(.poissonSampled (.float (Real.exp (-80))) (.gaussian (.float 1)), 3)] 0 ≤
        renyiDiv (5 / 2) P Q + (((3 * eventExcess (5 / 2) (.poissonSampled (.float (Real.exp (-80))) (.gaussian (.float 1)))) : ℝ) : EReal) := by
  obtain ⟨h0, h1⟩ := witness_q
  obtain ⟨N, -, hv⟩ := witness_stops
  have hlog : logAFrac (Real.exp (-80)) (.float 1) (5 / 2) = logAFracReal (Real.exp (-80)) 1 (5 / 2) := rfl
  set q := Real.exp (-80) with hq
  set l : List (DpEvent × ℤ) := [(.poissonSampled (.float q) (.gaussian (.float 1)), 3)] with hl
  have hw : ∀ p ∈ l, WfCounts p.1 := by simp [hl, WfCounts]
  have hq1 : ¬ ¬ (0 ≤ PyNum.val (.float q) ∧ PyNum.val (.float q) ≤ 1) := by
    rw [not_not]; exact ⟨by simpa [PyNum.val] using h0.le, by simpa [PyNum.val] using EReal.coe_le_coe_iff.2 (by linarith : q ≤ 1)⟩
  have hz' : ¬ PyNum.val (.float 1) < 0 := by rw [not_lt]; simp [PyNum.val]
  have hone : poissonOneOrder logAFrac q (.float 1) ((5 / 2 : ℝ) : EReal) =
      .ok (((Real.log (total q 1 (5 / 2) N) * (5 / 2 - 1)⁻¹ : ℝ)) : EReal) := by
    have hz0 : ¬ (((5 / 2 : ℝ) : EReal) = ⊤ ∨ (PyNum.float 1).val = 0) := by
      push Not; exact ⟨EReal.coe_ne_top _, by simp [PyNum.val]⟩
    have hne : ¬ ((5 / 2 : ℝ) : EReal) = 1 := by intro hc; exact absurd (EReal.coe_eq_one.1 hc) (by norm_num)
    unfold poissonOneOrder
    rw [if_neg h0.ne', if_neg hz0, if_neg (by linarith), if_neg hne, EReal.toReal_coe, logA, dif_neg frac_five_halves, hlog, hv, ← EReal.coe_mul]
  have hpg : poissonGaussian logAFrac (fun _ : Fin 1 => ((5 / 2 : ℝ) : EReal)) (.float q) (.num (.float 1)) =
      .ok fun _ => ((Real.log (total q 1 (5 / 2) N) * (5 / 2 - 1)⁻¹ : ℝ) : EReal) := by
    rw [poissonGaussian, if_neg hq1, if_neg hz', collect]
    simp only [PyNum.val, EReal.toReal_coe, hone, List.ofFn_succ, List.ofFn_zero, List.findSome?_cons, List.findSome?_nil]
  have hacc : Accepted (fun _ : Fin 1 => 5 / 2) logAFrac .addOrRemoveOne l := by
    refine (composeAll_spec _ _ _ hw _ Builder.inv_init).1.2 fun p hp => ?_
    rw [hl, List.mem_singleton] at hp
    subst hp
    refine ⟨by simp [RdpAccountant.verdict, RdpAccountant.maybeCompose, effNoise], by simp, fun a ha => ?_⟩
    simp only [expand, List.mem_singleton] at ha
    subst ha
    simp only [RdpAccountant.Ok, RdpAccountant.maybeCompose, effNoise, if_true, true_or]
    show (RdpAccountant.addTo _ 1 (poissonGaussian logAFrac (fun _ : Fin 1 => ((5 / 2 : ℝ) : EReal)) (.float q) (.num (.float 1)))).2 = _
    rw [hpg]; rfl
  have hex : historyEvents l = List.replicate 3 (.poissonSampled (.float q) (.gaussian (.float 1))) := by
    simp [historyEvents, hl, expand, repeatList, List.replicate_succ]
  obtain ⟨Ω, _, P, Q, k1, k2⟩ := C88_near_tight_partial (fun _ : Fin 1 => 5 / 2) .addOrRemoveOne l hw hacc 0 (by norm_num) (by
    rw [hex]
    intro e he
    rw [List.eq_of_mem_replicate he]
    exact .inl ⟨_, rfl, by simp [PyNum.val], by simpa [PyNum.val] using EReal.coe_ne_top 1⟩) (by
    unfold rdpAfter
    rw [C10_rdp_additive (libFns _ logAFrac) _ _ hw hacc]
    unfold totalRdp
    rw [sum_apply]
    have hval : ∀ x ∈ ((historyEvents l).map fun a => RdpAccountant.curve (libFns (fun _ : Fin 1 => 5 / 2) logAFrac) .addOrRemoveOne a 0),
        x = ((Real.log (total q 1 (5 / 2) N) * (5 / 2 - 1)⁻¹ : ℝ) : EReal) := by
      intro x hx
      obtain ⟨a, ha, rfl⟩ := List.mem_map.1 hx
      rw [hex] at ha
      rw [List.eq_of_mem_replicate ha]
      simp only [RdpAccountant.curve, RdpAccountant.maybeCompose, effNoise, if_true, true_or]
      show (RdpAccountant.addTo _ 1 (poissonGaussian logAFrac (fun _ : Fin 1 => ((5 / 2 : ℝ) : EReal)) (.float q) (.num (.float 1)))).1 0 = _
      rw [hpg]
      simp [RdpAccountant.addTo]
    have hsum : ((historyEvents l).map fun a => RdpAccountant.curve (libFns (fun _ : Fin 1 => 5 / 2) logAFrac) .addOrRemoveOne a 0).sum ≠ ⊤ := by
      rw [List.eq_replicate_of_mem hval, List.sum_replicate, ← EReal.coe_nsmul]
      exact EReal.coe_ne_top _
    exact hsum)
  refine ⟨Ω, _, P, Q, k1, ?_⟩
  rw [hex, List.map_replicate, List.sum_replicate, nsmul_eq_mul] at k2
  exact_mod_cast k2

end Verif.Props
