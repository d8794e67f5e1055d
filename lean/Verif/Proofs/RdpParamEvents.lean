import Verif.Proofs.RdpParam
import Verif.Proofs.RdpAtoms
import Verif.Proofs.WorMono

/-! # Milder events have smaller RDP curves -/

namespace Verif.Rdp
open Verif Verif.Spec Verif.Props Verif.Pld MeasureTheory ProbabilityTheory

variable {n : ℕ}

/-! ## Randomised response -/

lemma finMeasure_mix {O : Type} [MeasurableSpace O] (S : Finset O) (f g : O → ℝ) (hf : ∀ o ∈ S, 0 ≤ f o) (hg : ∀ o ∈ S, 0 ≤ g o) {a b : ℝ}
    (ha : 0 ≤ a) (hb : 0 ≤ b) :
    ENNReal.ofReal a • finMeasure S f + ENNReal.ofReal b • finMeasure S g = finMeasure S fun o => a * f o + b * g o := by
  unfold finMeasure
  rw [Finset.smul_sum, Finset.smul_sum, ← Finset.sum_add_distrib]
  refine Finset.sum_congr rfl fun o ho => ?_
  rw [smul_smul, smul_smul, ← ENNReal.ofReal_mul ha, ← ENNReal.ofReal_mul hb, ← add_smul,
    ← ENNReal.ofReal_add (mul_nonneg ha (hf o ho)) (mul_nonneg hb (hg o ho))]

/-- Randomised response with more noise is a mixture with a uniform response. -/
lemma rr_mix {k : ℕ} {p p' : ℝ} (h0 : 0 ≤ p') (hp : p' ≤ p) (h1 : p ≤ 1) (hp1 : p' < 1) :
    ∃ t : ℝ, 0 ≤ t ∧ t ≤ 1 ∧ ∀ x : Fin k, ENNReal.ofReal (1 - t) • uniformResponse k + ENNReal.ofReal t • rrMech k p' x = rrMech k p x := by
  have hd : 0 < 1 - p' := by linarith
  have ht0 : 0 ≤ (1 - p) / (1 - p') := div_nonneg (by linarith) hd.le
  have ht1 : (1 - p) / (1 - p') ≤ 1 := by rw [div_le_one hd]; linarith
  refine ⟨(1 - p) / (1 - p'), ht0, ht1, fun x => ?_⟩
  have hk : (0 : ℝ) < k := by exact_mod_cast x.pos
  unfold uniformResponse rrMech
  rw [finMeasure_mix _ _ _ (fun o _ => by positivity) (fun o _ => by split_ifs <;> [skip; skip] <;> [have := h0; have := h0] <;> positivity) (by linarith) ht0]
  congr 1
  funext o
  have hd' := hd.ne'
  field_simp
  ring

lemma uniform_mix {k : ℕ} {t : ℝ} (h0 : 0 ≤ t) (h1 : t ≤ 1) :
    ENNReal.ofReal (1 - t) • uniformResponse k + ENNReal.ofReal t • uniformResponse k = uniformResponse k := by
  rw [← add_smul, ← ENNReal.ofReal_add (by linarith) h0, sub_add_cancel, ENNReal.ofReal_one, one_smul]

lemma rr_mono {orders : Fin n → ℝ} {p p' : PyNum} {k : ℤ} {nr : NeighborRel} {a a' : Arr n} (hp : p'.val ≤ p.val)
    (h : randomizedResponse (fun i => (orders i : EReal)) p k nr = .ok a)
    (h' : randomizedResponse (fun i => (orders i : EReal)) p' k nr = .ok a') (i : Fin n) : a i ≤ a' i := by
  have hk : 1 ≤ k := by
    by_contra hc
    unfold randomizedResponse at h
    rw [if_pos (by omega : k < 1)] at h
    split_ifs at h
  obtain ⟨k, rfl⟩ := Int.eq_ofNat_of_zero_le (by omega : 0 ≤ k)
  have fin : ∀ (p : PyNum) (a : Arr n), randomizedResponse (fun i => (orders i : EReal)) p k nr = .ok a → p.val = ((p.val.toReal : ℝ) : EReal) := by
    intro p a h
    unfold randomizedResponse at h
    by_cases c : p.val < 0 ∨ p.val > 1
    · rw [if_pos c] at h; simp at h
    push Not at c
    refine (EReal.coe_toReal ?_ ?_).symm
    · intro e; rw [e] at c; exact absurd c.2 (by rw [not_le]; exact EReal.coe_lt_top 1)
    · intro e; rw [e] at c; exact absurd c.1 (by simp)
  have hpp : p'.val.toReal ≤ p.val.toReal := by
    rw [fin p a h, fin p' a' h'] at hp
    exact_mod_cast hp
  obtain ⟨h0, h1, h2⟩ := rr_ok h
  obtain ⟨h0', h1', h2'⟩ := rr_ok h'
  have h3 := h2 i
  have h3' := h2' i
  generalize p.val.toReal = P at *
  generalize p'.val.toReal = P' at *
  rcases h1'.eq_or_lt with rfl | hp1
  · obtain rfl : P = 1 := by linarith
    rw [h3, Except.ok.injEq] at h3'
    exact h3'.le
  have hk0 : 0 < k := by omega
  have hu := uniform_prob (k := k) hk0
  obtain ⟨t, ht0, ht1, ht⟩ := rr_mix (k := k) h0' hpp h1 hp1
  have hp' := fun x : Fin k => rr_prob h0' h1' x
  by_cases hnr : nr = .replaceOne
  · rw [if_pos hnr] at h3 h3'
    by_cases hα : 1 < orders i
    swap
    · rw [rrReplaceOne, if_pos (by exact_mod_cast not_lt.1 hα)] at h3; simp at h3
    by_cases hk1 : k = 1
    · rw [rrReplaceOne, if_neg (by rw [not_le]; exact_mod_cast hα), if_pos (Or.inl (by omega)), Except.ok.injEq] at h3 h3'
      rw [← h3, ← h3']
    · have hxy : (⟨0, hk0⟩ : Fin k) ≠ ⟨1, by omega⟩ := by simp
      rw [C38_replace_one_exact _ h0 h1 k _ _ hxy _ hα, Except.ok.injEq] at h3
      rw [C38_replace_one_exact _ h0' h1' k _ _ hxy _ hα, Except.ok.injEq] at h3'
      rw [← h3, ← h3', ← ht, ← ht]
      exact renyi_mix hα.le ht0 ht1 _ _ _
  · rw [if_neg hnr] at h3 h3'
    by_cases hα : 1 < orders i
    swap
    · rw [rrReplaceSpecial, if_pos (by exact_mod_cast not_lt.1 hα)] at h3; simp at h3
    rw [C38_replace_special_exact _ h0 h1 k ⟨0, hk0⟩ _ hα, Except.ok.injEq] at h3
    rw [C38_replace_special_exact _ h0' h1' k ⟨0, hk0⟩ _ hα, Except.ok.injEq] at h3'
    rw [← h3, ← h3', ← ht]
    have e := uniform_mix (k := k) ht0 ht1
    refine max_le_max ?_ ?_
    · have := renyi_mix hα.le ht0 ht1 (rrMech k P' ⟨0, hk0⟩) (uniformResponse k) (uniformResponse k)
      rwa [e] at this
    · have := renyi_mix hα.le ht0 ht1 (uniformResponse k) (rrMech k P' ⟨0, hk0⟩) (uniformResponse k)
      rwa [e] at this

/-! ## Repeat and select -/

lemma constTerm_mono {orders : Fin n → ℝ} (ho : ∀ i, 1 ≤ orders i) {rdp rdp' : Arr n} (hr : ∀ i, rdp i ≤ rdp' i) {s g : ℝ} (hs : 0 ≤ s) :
    RepeatSelect.constTerm orders rdp s g ≤ RepeatSelect.constTerm orders rdp' s g := by
  unfold RepeatSelect.constTerm
  by_cases c' : ∃ j, orders j = 1 ∧ rdp' j = ⊤
  · rw [if_pos c']; exact le_top
  have c : ¬ ∃ j, orders j = 1 ∧ rdp j = ⊤ := fun ⟨j, h1, h2⟩ => c' ⟨j, h1, top_le_iff.1 (h2 ▸ hr j)⟩
  rw [if_neg c, if_neg c']
  refine mul_le_mul_of_nonneg_left (Finset.inf_mono_fun fun j _ => EReal.sub_le_sub (mul_le_mul_of_nonneg_left (hr j) ?_) le_rfl) ?_
  · have hj := ho j
    have : 1 / orders j ≤ 1 := by rw [div_le_one (by linarith)]; exact hj
    exact_mod_cast (by linarith : (0 : ℝ) ≤ 1 - 1 / orders j)
  · exact_mod_cast (by linarith : (0 : ℝ) ≤ 1 + s)

lemma ras_mono {orders : Fin n → ℝ} (ho : ∀ i, 1 ≤ orders i) {rdp rdp' a a' : Arr n} {mean shape : PyNum} (hr : ∀ i, rdp i ≤ rdp' i)
    (h : RepeatSelect.repeatAndSelect orders rdp mean shape = .ok a) (h' : RepeatSelect.repeatAndSelect orders rdp' mean shape = .ok a') (i : Fin n) :
    a i ≤ a' i := by
  cases hs : shape.real? with
  | none =>
    unfold RepeatSelect.repeatAndSelect at h h'
    rw [hs] at h h'
    by_cases hsh : shape.val < 0
    · rw [if_pos hsh] at h; simp at h
    by_cases hm1 : mean.val < 1
    · rw [if_neg hsh, if_pos hm1] at h; simp at h
    rw [if_neg hsh, if_neg hm1] at h h'
    have h3 := collect_ok h i
    have h3' := collect_ok h' i
    unfold RepeatSelect.poissonEntry at h3 h3'
    by_cases c1 : orders i ≤ 1
    · rw [if_pos c1, Except.ok.injEq] at h3'
      rw [← h3']; exact le_top
    rw [if_neg c1] at h3 h3'
    cases hd : RdpConv.computeDelta (List.ofFn orders) (List.ofFn rdp) (Real.log (1 + 1 / (orders i - 1))) with
    | error e => rw [hd] at h3; simp at h3
    | ok da =>
      cases hd' : RdpConv.computeDelta (List.ofFn orders) (List.ofFn rdp') (Real.log (1 + 1 / (orders i - 1))) with
      | error e => rw [hd'] at h3'; simp at h3'
      | ok da' =>
        obtain ⟨d, x⟩ := da
        obtain ⟨d', x'⟩ := da'
        rw [hd] at h3
        rw [hd'] at h3'
        simp only at h3 h3'
        cases hm : mean.real? with
        | none => rw [hm] at h3'; simp only [Except.ok.injEq] at h3'; rw [← h3']; exact le_top
        | some m =>
          rw [hm] at h3 h3'
          simp only [Except.ok.injEq] at h3 h3'
          rw [← h3, ← h3']
          have hm0 : 0 ≤ m := by
            rw [RepeatSelect.val_real hm, not_lt] at hm1
            have : (1 : ℝ) ≤ m := by exact_mod_cast hm1
            linarith
          have hdd := C79_compute_delta _ _ _ _ d d' x x' (forall₂_ofFn hr) hd hd'
          refine add_le_add (add_le_add (hr i) ?_) le_rfl
          exact_mod_cast mul_le_mul_of_nonneg_left hdd hm0
  | some s =>
    have hs0 : 0 ≤ s := by
      by_contra hc
      unfold RepeatSelect.repeatAndSelect at h
      rw [if_pos (by rw [RepeatSelect.val_real hs]; exact_mod_cast not_le.1 hc)] at h
      simp at h
    obtain ⟨g, m, hg, hm, hl, -⟩ := C44_monotone orders rdp a mean shape s hs h
    obtain ⟨g', m', hg', hm', hl', -⟩ := C44_monotone orders rdp' a' mean shape s hs h'
    obtain rfl : g = g' := by rw [hg] at hg'; exact Except.ok.inj hg'
    obtain rfl : m = m' := by rw [hm] at hm'; exact Option.some.inj hm'
    obtain ⟨j, hj, he⟩ := (hl' i).1
    refine ((hl i).2 ⟨j, hj, rfl⟩).trans ?_
    rw [he]
    split_ifs
    · exact add_le_add (add_le_add (hr j) le_rfl) (constTerm_mono ho hr hs0)
    · exact le_rfl

/-! ## Events -/

lemma addTo_curve {v : Except Err (Arr n)} (h : (RdpAccountant.addTo (fun _ => 0) 1 v).2 = .ok none) :
    ∃ a, v = .ok a ∧ (RdpAccountant.addTo (fun _ => 0) 1 v).1 = a := by
  cases v with
  | error e => simp [RdpAccountant.addTo] at h
  | ok a => exact ⟨a, rfl, by funext i; simp [RdpAccountant.addTo]⟩

/-- Repeat and select, in terms of the events it repeats. -/
lemma ras_curve {F : RdpFns n} {nr : NeighborRel} {e : DpEvent} (hw : WfCounts e) {mean shape : PyNum}
    (hok : RdpAccountant.Ok F nr (.repeatAndSelect e mean shape)) :
    (∀ a ∈ expand e, RdpAccountant.Ok F nr a) ∧
    ∃ out, F.repeatAndSelect (fun j => ((expand e).map fun a => RdpAccountant.curve F nr a j).sum) mean shape = .ok out ∧
      RdpAccountant.curve F nr (.repeatAndSelect e mean shape) = out := by
  unfold RdpAccountant.Ok at hok
  unfold RdpAccountant.curve
  simp only [RdpAccountant.maybeCompose, if_true] at hok ⊢
  have hspec := RdpAccountant.real_spec F nr e hw 1 le_rfl (fun _ => 0)
  have hokc := RdpAccountant.real_ok F nr e hw 1 le_rfl (fun _ => 0)
  generalize hR : RdpAccountant.maybeCompose F nr e 1 true (fun _ => 0) = R at *
  obtain ⟨inner, res⟩ := R
  rcases res with err | c
  · simp at hok
  rcases c with _ | c
  swap
  · simp at hok
  simp only at hok ⊢
  have hin : inner = fun j => ((expand e).map fun a => RdpAccountant.curve F nr a j).sum := by
    funext j
    have := congrFun (hspec rfl) j
    simp only [Int.toNat_one, one_smul, Pi.add_apply, zero_add] at this
    rw [this, sum_apply]
  refine ⟨hokc.1 rfl, ?_⟩
  cases hr : F.repeatAndSelect inner mean shape with
  | error err => rw [hr] at hok; simp at hok
  | ok out =>
    refine ⟨out, ?_, by funext i; simp⟩
    rw [← hr, hin]
    rfl

/-- Queries with less total precision have more effective noise. -/
lemma effNoise_pair {e e' : DpEvent} (h : GaussianQueries e) (h' : GaussianQueries e') (hp : totalPrecision e ≤ totalPrecision e') :
    ∃ (s s' : PyNum) (z z' : ℝ), effNoise e = .ok (.num s) ∧ effNoise e' = .ok (.num s') ∧ s.val = (z : EReal) ∧ s'.val = (z' : EReal) ∧
      0 < z' ∧ z' ≤ z := by
  obtain ⟨s, z, h1, h2, h3, -, h4⟩ := effNoise_covered h
  obtain ⟨s', z', h1', h2', h3', -, h4'⟩ := effNoise_covered h'
  refine ⟨s, s', z, z', h1, h1', h2, h2', h3', ?_⟩
  unfold totalPrecision at hp
  rw [← h4, ← h4'] at hp
  have := le_of_one_div_le_one_div (by positivity) hp
  exact (pow_le_pow_iff_left₀ h3'.le h3.le (by norm_num)).1 this

/-- A milder event has a smaller curve; a milder list a smaller sum of curves. -/
theorem milder_curve {orders : Fin n → ℝ} (ho : ∀ i, 1 ≤ orders i) {frac : ℝ → PyNum → ℝ → EReal} (hn : FracNonneg orders frac)
    (hf : FracExact orders frac) (nr : NeighborRel) :
    (∀ e e', Milder e e' → WfCounts e → WfCounts e' → RdpAccountant.Ok (libFns orders frac) nr e → RdpAccountant.Ok (libFns orders frac) nr e' →
      ∀ i, RdpAccountant.curve (libFns orders frac) nr e i ≤ RdpAccountant.curve (libFns orders frac) nr e' i) ∧
    (∀ l l', MilderAll l l' → (∀ e ∈ l, WfCounts e ∧ RdpAccountant.Ok (libFns orders frac) nr e) →
      (∀ e ∈ l', WfCounts e ∧ RdpAccountant.Ok (libFns orders frac) nr e) →
      ∀ i, (l.map fun a => RdpAccountant.curve (libFns orders frac) nr a i).sum ≤ (l'.map fun a => RdpAccountant.curve (libFns orders frac) nr a i).sum) := by
  have hF := libFns_nonneg orders ho frac hn
  have pois : ∀ q q' z z' : PyNum, q.val ≤ q'.val → z'.val ≤ z.val → (q.val ≠ 1 → z.val ≠ ⊤) →
      ∀ a a', poissonGaussian frac (fun i => (orders i : EReal)) q (.num z) = .ok a →
      poissonGaussian frac (fun i => (orders i : EReal)) q' (.num z') = .ok a' → ∀ i, a i ≤ a' i :=
    fun q q' z z' h1 h2 h3 a a' h h' i => poissonGaussian_mono ho hn hf h1 h2 h3 h h' i
  let M1 : ∀ e e', Milder e e' → Prop := fun e e' _ => WfCounts e → WfCounts e' → RdpAccountant.Ok (libFns orders frac) nr e →
    RdpAccountant.Ok (libFns orders frac) nr e' →
      ∀ i, RdpAccountant.curve (libFns orders frac) nr e i ≤ RdpAccountant.curve (libFns orders frac) nr e' i
  let M2 : ∀ l l', MilderAll l l' → Prop := fun l l' _ => (∀ e ∈ l, WfCounts e ∧ RdpAccountant.Ok (libFns orders frac) nr e) →
      (∀ e ∈ l', WfCounts e ∧ RdpAccountant.Ok (libFns orders frac) nr e) →
      ∀ i, (l.map fun a => RdpAccountant.curve (libFns orders frac) nr a i).sum ≤ (l'.map fun a => RdpAccountant.curve (libFns orders frac) nr a i).sum
  have same : ∀ e, M1 e e (.same e) := fun e _ _ _ _ i => le_rfl
  have nonPrivate : ∀ e, M1 e .nonPrivate (.nonPrivate e) := by
    intro e _ _ _ _ i
    unfold RdpAccountant.curve
    simp [RdpAccountant.maybeCompose]
  have gaussian : ∀ z z' h, M1 _ _ (.gaussian z z' h) := by
    intro z z' h _ _ ok ok' i
    simp only [RdpAccountant.Ok, RdpAccountant.curve, RdpAccountant.maybeCompose, if_true] at ok ok' ⊢
    obtain ⟨a, ha, hc⟩ := addTo_curve ok
    obtain ⟨a', ha', hc'⟩ := addTo_curve ok'
    rw [hc, hc']
    exact pois _ _ _ _ le_rfl h (fun hne => absurd (by simp [PyNum.val]) hne) _ _ ha ha' i
  have laplace : ∀ z z' h, M1 _ _ (.laplace z z' h) := by
    intro z z' h _ _ ok ok' i
    simp only [RdpAccountant.Ok, RdpAccountant.curve, RdpAccountant.maybeCompose, if_true] at ok ok' ⊢
    cases hr : RdpAccountant.recip z with
    | error e => rw [hr] at ok; simp at ok
    | ok eps =>
      cases hr' : RdpAccountant.recip z' with
      | error e => rw [hr'] at ok'; simp at ok'
      | ok eps' =>
        rw [hr] at ok
        rw [hr'] at ok'
        simp only at ok ok' ⊢
        obtain ⟨a, ha, hc⟩ := addTo_curve ok
        obtain ⟨a', ha', hc'⟩ := addTo_curve ok'
        rw [hc, hc']
        have g := collect_ok ha i
        have g' := collect_ok ha' i
        have pos : ∀ (e : ℝ) (r : EReal), laplaceRdp e (orders i : EReal) = .ok r → 0 ≤ e := by
          intro e r h
          by_contra hcc
          unfold laplaceRdp at h
          rw [if_pos (not_le.1 hcc)] at h; simp at h
        exact laplace_mono (ho i) (recip_anti h hr hr' (pos _ _ g) (pos _ _ g')) g g'
  have sampled : ∀ q q' z z' h1 h2 h3, M1 _ _ (.sampled q q' z z' h1 h2 h3) := by
    intro q q' z z' h1 h2 h3 _ _ ok ok' i
    simp only [RdpAccountant.Ok, RdpAccountant.curve, RdpAccountant.maybeCompose, if_true, effNoise] at ok ok' ⊢
    by_cases c : nr = .addOrRemoveOne ∨ nr = .replaceSpecial
    · rw [if_pos c] at ok ok'
      rw [if_pos c, if_pos c]
      obtain ⟨a, ha, hc⟩ := addTo_curve ok
      obtain ⟨a', ha', hc'⟩ := addTo_curve ok'
      rw [hc, hc']
      exact pois _ _ _ _ h1 h2 (fun _ => h3) _ _ ha ha' i
    · rw [if_neg c] at ok; simp at ok
  have unsampled : ∀ q z z' h1 h2, M1 _ _ (.unsampled q z z' h1 h2) := by
    intro q z z' h1 h2 _ _ ok ok' i
    simp only [RdpAccountant.Ok, RdpAccountant.curve, RdpAccountant.maybeCompose, if_true, effNoise] at ok ok' ⊢
    by_cases c : nr = .addOrRemoveOne ∨ nr = .replaceSpecial
    · rw [if_pos c] at ok
      rw [if_pos c]
      obtain ⟨a, ha, hc⟩ := addTo_curve ok
      obtain ⟨a', ha', hc'⟩ := addTo_curve ok'
      rw [hc, hc']
      refine pois _ _ _ _ ?_ h1 (fun _ => h2) _ _ ha ha' i
      by_contra hq
      have hq : ¬ (0 ≤ q.val ∧ q.val ≤ 1) := fun hh => hq (by simpa [PyNum.val] using hh.2)
      have ha : poissonGaussian frac (fun i => (orders i : EReal)) q (.num z) = .ok a := ha
      rw [poissonGaussian, if_pos hq] at ha
      simp at ha
    · rw [if_neg c] at ok; simp at ok
  have sampledQueries : ∀ q q' e e' h1 h2 h3 h4, M1 _ _ (.sampledQueries q q' e e' h1 h2 h3 h4) := by
    intro q q' e e' h1 h2 h3 h4 _ _ ok ok' i
    obtain ⟨s, s', z, z', g, g', hs, hs', hz', hzz⟩ := effNoise_pair h1 h2 h4
    simp only [RdpAccountant.Ok, RdpAccountant.curve, RdpAccountant.maybeCompose, if_true, g, g'] at ok ok' ⊢
    by_cases c : nr = .addOrRemoveOne ∨ nr = .replaceSpecial
    · rw [if_pos c] at ok ok'
      rw [if_pos c, if_pos c]
      obtain ⟨a, ha, hc⟩ := addTo_curve ok
      obtain ⟨a', ha', hc'⟩ := addTo_curve ok'
      rw [hc, hc']
      exact pois _ _ _ _ h3 (by rw [hs, hs']; exact_mod_cast hzz) (fun _ => by rw [hs]; exact EReal.coe_ne_top _) _ _ ha ha' i
    · rw [if_neg c] at ok; simp at ok
  have withoutReplacement : ∀ n n' m m' e e' h1 h2 h3 h4 h5, M1 _ _ (.withoutReplacement n n' m m' e e' h1 h2 h3 h4 h5) := by
    intro n n' m m' e e' h1 h2 h3 h4 h5 _ _ ok ok' i
    obtain ⟨s, s', z, z', g, g', hs, hs', hz', hzz⟩ := effNoise_pair h1 h2 h5
    simp only [RdpAccountant.Ok, RdpAccountant.curve, RdpAccountant.maybeCompose, if_true, g, g'] at ok ok' ⊢
    by_cases c : nr = .replaceOne
    · rw [if_pos c] at ok ok'
      rw [if_pos c, if_pos c]
      by_cases hn : n = 0
      · simp [RdpAccountant.ratio, hn] at ok
      by_cases hn' : n' = 0
      · simp [RdpAccountant.ratio, hn'] at ok'
      simp only [RdpAccountant.ratio, hn, hn', if_false] at ok ok' ⊢
      obtain ⟨a, ha, hc⟩ := addTo_curve ok
      obtain ⟨a', ha', hc'⟩ := addTo_curve ok'
      rw [hc, hc']
      have ka := collect_ok ha i
      have ka' := collect_ok ha' i
      have h0 : 0 ≤ (m / n : ℝ) := by
        by_contra hneg
        unfold worScalar at ka
        rw [if_pos (by tauto)] at ka
        simp at ka
      exact Wor.worScalar_mono h0 h3 h4 hz' hzz hs hs' ka ka'
    · rw [if_neg c] at ok; simp at ok
  have tree : ∀ z z' s s' h1 h2, M1 _ _ (.tree z z' s s' h1 h2) := by
    intro z z' s s' h1 h2 _ _ ok ok' i
    simp only [RdpAccountant.Ok, RdpAccountant.curve, RdpAccountant.maybeCompose, if_true] at ok ok' ⊢
    by_cases c : nr = .replaceSpecial
    · rw [if_pos c] at ok ok'
      rw [if_pos c, if_pos c]
      obtain ⟨a, ha, hc⟩ := addTo_curve ok
      obtain ⟨a', ha', hc'⟩ := addTo_curve ok'
      rw [hc, hc']
      exact tree_mono ho h1 h2 ha ha' i
    · rw [if_neg c] at ok; simp at ok
  have rr : ∀ p p' k h, M1 _ _ (.randomizedResponse p p' k h) := by
    intro p p' k h _ _ ok ok' i
    simp only [RdpAccountant.Ok, RdpAccountant.curve, RdpAccountant.maybeCompose, if_true] at ok ok' ⊢
    by_cases c : nr = .replaceSpecial ∨ nr = .replaceOne
    · rw [if_pos c] at ok ok'
      rw [if_pos c, if_pos c]
      obtain ⟨a, ha, hc⟩ := addTo_curve ok
      obtain ⟨a', ha', hc'⟩ := addTo_curve ok'
      rw [hc, hc']
      exact rr_mono h ha ha' i
    · rw [if_neg c] at ok; simp at ok
  have ras : ∀ e e' m s h, M2 _ _ h → M1 _ _ (.repeatAndSelect e e' m s h) := by
    intro e e' m s h ih w w' ok ok' i
    rw [WfCounts] at w w'
    obtain ⟨g, out, ho1, hc⟩ := ras_curve w ok
    obtain ⟨g', out', ho1', hc'⟩ := ras_curve w' ok'
    rw [hc, hc']
    exact ras_mono ho (fun j => ih (fun a ha => ⟨wfCounts_mem w ha, g a ha⟩) (fun a ha => ⟨wfCounts_mem w' ha, g' a ha⟩) j) ho1 ho1' i
  have pos : ∀ l : List DpEvent, (∀ e ∈ l, WfCounts e ∧ RdpAccountant.Ok (libFns orders frac) nr e) → ∀ i,
      0 ≤ (l.map fun a => RdpAccountant.curve (libFns orders frac) nr a i).sum := by
    intro l hl i
    refine List.sum_nonneg fun x hx => ?_
    obtain ⟨a, ha, rfl⟩ := List.mem_map.1 hx
    exact RdpAccountant.curve_nonneg _ nr hF (hl a ha).1 i
  have nil : ∀ l, M2 _ _ (.nil l) := by
    intro l _ hl i
    simpa using pos l hl i
  have cons : ∀ e e' l l' h1 h2, M1 e e' h1 → M2 l l' h2 → M2 _ _ (.cons e e' l l' h1 h2) := by
    intro e e' l l' h1 h2 ih1 ih2 hl hl' i
    rw [List.map_cons, List.sum_cons, List.map_cons, List.sum_cons]
    have a := hl e (by simp)
    have a' := hl' e' (by simp)
    exact add_le_add (ih1 a.1 a'.1 a.2 a'.2 i)
      (ih2 (fun x hx => hl x (List.mem_cons_of_mem _ hx)) (fun x hx => hl' x (List.mem_cons_of_mem _ hx)) i)
  have skip : ∀ e' l l' h, M2 l l' h → M2 _ _ (.skip e' l l' h) := by
    intro e' l l' h ih hl hl' i
    rw [List.map_cons, List.sum_cons]
    exact (ih hl (fun x hx => hl' x (List.mem_cons_of_mem _ hx)) i).trans
      (le_add_of_nonneg_left (RdpAccountant.curve_nonneg _ nr hF (hl' e' (by simp)).1 i))
  exact ⟨fun e e' h => Milder.rec (motive_1 := M1) (motive_2 := M2) same nonPrivate gaussian laplace sampled unsampled sampledQueries withoutReplacement tree rr ras nil cons skip h,
    fun l l' h => MilderAll.rec (motive_1 := M1) (motive_2 := M2) same nonPrivate gaussian laplace sampled unsampled sampledQueries withoutReplacement tree rr ras nil cons skip h⟩

end Verif.Rdp
