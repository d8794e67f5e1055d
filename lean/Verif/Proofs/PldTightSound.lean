import Verif.Proofs.PldTightLaws

/-! # The state of the accountant is tight -/

namespace Verif.Spec
open MeasureTheory ProbabilityTheory Verif.Pld Verif.PldPmf Verif.Mech

variable {ppf : ℝ → ℝ → ℝ} {disc : ℝ} {nr : NeighborRel}

variable (disc nr) in
/-- Both directions of `p` report at most the deltas of exact laws of mechanisms described by `M`, at an epsilon that is smaller by the
interval for every mechanism, plus `s`. -/
def Tight (p : Pld) (M : Multiset DpEvent) (s : ℝ) : Prop :=
  p.Valid ∧ ∃ Xs : List (DpEvent × LossLaw × LossLaw), ((Xs.map Prod.fst : List DpEvent) : Multiset DpEvent) = M ∧
    (∀ x ∈ Xs, TightLaw nr x.1 x.2.1 x.2.2) ∧ TightDir p.remove (LossLaw.convAll (Xs.map fun x => x.2.1)) (M.card * disc) s ∧
    TightDir p.add (LossLaw.convAll (Xs.map fun x => x.2.2)) (M.card * disc) s

lemma Tight.weaken {p : Pld} {M : Multiset DpEvent} {s s' : ℝ} (h : Tight disc nr p M s) (hs : s ≤ s') : Tight disc nr p M s' := by
  obtain ⟨hv, Xs, h1, h2, h3, h4⟩ := h
  exact ⟨hv, Xs, h1, h2, h3.weaken le_rfl hs, h4.weaken le_rfl hs⟩

lemma Tight.compose {p q r : Pld} {M M' : Multiset DpEvent} {s s' t : ℝ} (hp : Tight disc nr p M s) (hq : Tight disc nr q M' s') (h1 : q.remove.infinityMass ≤ 1)
    (h2 : q.add.infinityMass ≤ 1) (hs : 0 ≤ s) (ht : 0 ≤ t) (h : p.compose q t = .ok r) : Tight disc nr r (M + M') (s * (1 + s') + s' + t) := by
  obtain ⟨hv, Xs, a1, a2, a3, a4⟩ := hp
  obtain ⟨hv', Ys, b1, b2, b3, b4⟩ := hq
  obtain ⟨c1, c2⟩ := compose_both hv hv' h
  refine ⟨(Props.C24_compose_valid p q r hv hv' t h).2.2.1, Xs ++ Ys, ?_, ?_, ?_, ?_⟩
  · rw [List.map_append, ← Multiset.coe_add, a1, b1]
  · intro x hx
    rcases List.mem_append.1 hx with hx | hx
    · exact a2 x hx
    · exact b2 x hx
  · rw [List.map_append, convAll_append, Multiset.card_add]
    have := a3.compose b3 h1 hs ht c1
    push_cast
    rwa [add_mul]
  · rw [List.map_append, convAll_append, Multiset.card_add]
    have := a4.compose b4 h2 hs ht c2
    push_cast
    rwa [add_mul]

variable (disc nr) in
/-- The state of the accountant. -/
def StateTight (p : Pld) (M : Multiset DpEvent) : Prop :=
  M.card ≤ 10 ^ 14 → (∀ a ∈ M, TightOk disc a) → Tight disc nr p M (4e-15 * M.card)

variable (disc nr) in
/-- A PLD about to be composed. -/
def NewTight (p : Pld) (M : Multiset DpEvent) : Prop := 1 ≤ M.card ∧
  (M.card ≤ 10 ^ 14 → (∀ a ∈ M, TightOk disc a) → Tight disc nr p M (2e-15 + 1e-22 * M.card) ∧ p.remove.infinityMass ≤ 1 ∧ p.add.infinityMass ≤ 1)

variable (disc nr) in
/-- The result of a constructor. -/
def BaseTight (p : Pld) (a : DpEvent) : Prop :=
  TightOk disc a → ProperPld p ∧ p.remove.infinityMass ≤ 1e-22 ∧ p.add.infinityMass ≤ 1e-22 ∧ ∃ L L' : LossLaw, TightLaw nr a L L' ∧
    ∀ e : ℝ, p.remove.hs (e : EReal) ≤ L.hs (e - disc) + 1e-22 ∧ p.add.hs (e : EReal) ≤ L'.hs (e - disc) + 1e-22

lemma proper_inf {m : Pmf} (hn : m.NonNeg) (hm : totalMass m = 1) : m.infinityMass ≤ 1 := by
  have := Verif.finiteMass_nonneg hn
  unfold totalMass at hm; linarith

lemma exp_slack : 0.5 * Real.exp (-50) ≤ 1e-22 := exp_neg_fifty

lemma StateTight.compose {p q r : Pld} {M M' : Multiset DpEvent} (hp : StateTight disc nr p M) (hq : NewTight disc nr q M')
    (h : p.compose q PldLibrary.tailTruncation = .ok r) : StateTight disc nr r (M + M') := by
  intro hc hg
  rw [Multiset.card_add] at hc
  have k1 := hp (by omega) fun a ha => hg a (Multiset.mem_add.2 (Or.inl ha))
  obtain ⟨hn, hq⟩ := hq
  obtain ⟨k2, i1, i2⟩ := hq (by omega) fun a ha => hg a (Multiset.mem_add.2 (Or.inr ha))
  have ht : (0 : ℝ) ≤ PldLibrary.tailTruncation := by unfold PldLibrary.tailTruncation; norm_num
  refine (k1.compose k2 i1 i2 (by positivity) ht h).weaken ?_
  rw [Multiset.card_add]
  have c1 : ((M.card : ℕ) : ℝ) ≤ 10 ^ 14 := by exact_mod_cast (by omega : M.card ≤ 10 ^ 14)
  have c2 : (1 : ℝ) ≤ ((M'.card : ℕ) : ℝ) := by exact_mod_cast hn
  have c0 : (0 : ℝ) ≤ ((M.card : ℕ) : ℝ) := by positivity
  unfold PldLibrary.tailTruncation
  push_cast
  generalize ((M.card : ℕ) : ℝ) = n at *
  generalize ((M'.card : ℕ) : ℝ) = k at *
  have : 4e-15 * n * (2e-15 + 1e-22 * k) ≤ 0.4 * (2e-15 + 1e-22 * k) := mul_le_mul_of_nonneg_right (by norm_num at c1 ⊢; linarith) (by positivity)
  norm_num at this ⊢
  linarith

lemma BaseTight.selfCompose {p r : Pld} {a : DpEvent} {nfl : ℕ → ℕ} (hnfl : ∀ k, k ≤ nfl k) {n : ℤ} (hp : BaseTight disc nr p a) (hn : 1 ≤ n)
    (h : p.selfCompose nfl n PldLibrary.tailTruncation = .ok r) : NewTight disc nr r (Multiset.replicate n.toNat a) := by
  refine ⟨by rw [Multiset.card_replicate]; omega, fun hc hg => ?_⟩
  rw [Multiset.card_replicate] at hc ⊢
  obtain ⟨hpp, i1, i2, L, L', hL, hle⟩ := hp (hg a (Multiset.mem_replicate.2 ⟨by omega, rfl⟩))
  have hv := (Props.C24_self_compose_valid nfl hnfl p r hpp.valid (proper_inf hpp.nonneg hpp.mass) (proper_inf hpp.nonnegAdd hpp.massAdd) n _ h).2.1
  obtain ⟨c1, c2⟩ := selfCompose_both hpp.valid h
  have ht : (0 : ℝ) ≤ PldLibrary.tailTruncation := by unfold PldLibrary.tailTruncation; norm_num
  have t1 := TightDir.selfCompose hnfl hpp.valid.wfRemove hpp.nonneg hpp.pess hpp.mass (by norm_num) ht (fun e => (hle e).1) c1
  have t2 := TightDir.selfCompose hnfl hpp.valid.wfAdd hpp.nonnegAdd (hpp.valid.pess.trans hpp.pess) hpp.massAdd (by norm_num) ht (fun e => (hle e).2) c2
  have hn' : ((n.toNat : ℕ) : ℝ) ≤ 10 ^ 14 := by exact_mod_cast hc
  have hsl : (n.toNat : ℝ) * 1e-22 + 2 * PldLibrary.tailTruncation ≤ 2e-15 + 1e-22 * n.toNat := by
    unfold PldLibrary.tailTruncation; norm_num; linarith
  have bound : ∀ {m c : Pmf}, m.WF → m.NonNeg → m.pessimistic = true → totalMass m = 1 → m.infinityMass ≤ 1e-22 →
      m.selfCompose nfl n PldLibrary.tailTruncation = .ok c → c.infinityMass ≤ 1 := by
    intro m c hw hnn hpe hm hi hc
    obtain ⟨-, sp⟩ := Pmf.selfCompose_spec hnfl hw (proper_inf hnn hm) hc
    have hb : 1 - n.toNat * m.infinityMass ≤ (1 - m.infinityMass) ^ n.toNat := by
      have := one_add_mul_le_pow (a := -m.infinityMass) (by linarith [proper_inf hnn hm]) n.toNat
      rw [← sub_eq_add_neg] at this
      linarith
    have up := (sp.up hnn hpe ht (fun _ => 0) (fun _ _ _ => le_rfl) (fun _ => le_rfl) (fun _ => zero_le_one)).2
    have e : nfold m.points n.toNat (fun _ => 0) = 0 := by
      rw [← expect_nfoldPts]; simp
    rw [e] at up
    simp only [expect_zero] at up
    have h3 : (n.toNat : ℝ) * m.infinityMass ≤ 10 ^ 14 * 1e-22 := mul_le_mul hn' hi hnn.1 (by positivity)
    unfold PldLibrary.tailTruncation at up
    norm_num at h3 up hb ⊢
    linarith
  refine ⟨⟨hv, List.replicate n.toNat (a, L, L'), ?_, ?_, ?_, ?_⟩, bound hpp.valid.wfRemove hpp.nonneg hpp.pess hpp.mass i1 c1,
    bound hpp.valid.wfAdd hpp.nonnegAdd (hpp.valid.pess.trans hpp.pess) hpp.massAdd i2 c2⟩
  · rw [List.map_replicate, Multiset.coe_replicate]
  · intro x hx
    rw [List.eq_of_mem_replicate hx]; exact hL
  · rw [List.map_replicate, ← pow_eq_convAll, Multiset.card_replicate]
    exact t1.weaken le_rfl hsl
  · rw [List.map_replicate, ← pow_eq_convAll, Multiset.card_replicate]
    exact t2.weaken le_rfl hsl

/-! ### Constructors -/

lemma laplace_baseTight (hd : 0 < disc) {a : DpEvent} {x y : ℝ} (ho : Props.OffGrid disc y) {p : Pld} (h : Mech.fromLaplace 0 x 1 true disc y true = some (.ok p))
    (ha : PldEventPair nr a = SampledLaplacePair x y ∨ y = 1 ∧ PldEventPair nr a = LaplacePair x) : BaseTight disc nr p a := by
  intro _
  obtain ⟨hb, -, q0, q1⟩ := Props.laplace_params h
  obtain ⟨h1, -, h3⟩ := Props.C32_laplace_partial h hd ho
  obtain ⟨i1, i2⟩ := fromLaplace_inf h hd
  obtain ⟨f, hf⟩ := Props.laplace_curves hb one_pos q0 q1
  obtain ⟨g1, g2⟩ := fromLaplace_polygon h hd ho.gridOk hf
  obtain ⟨L, L', hL, hle⟩ := laplace_tight hb q0.le q1 ha
  refine ⟨h1, by norm_num at i1 ⊢; linarith, by norm_num at i2 ⊢; linarith, L, L', hL, fun e => ?_⟩
  rw [← Pmf.getDelta_eq_hs _ h1.valid.wfRemove, ← Pmf.getDelta_eq_hs _ h1.valid.wfAdd, g1, g2]
  have k1 := gridPolygon_le hd e (hf .remove)
  have k2 := gridPolygon_le hd e (hf .add)
  obtain ⟨k3, k4⟩ := hle f hf (e - disc)
  norm_num
  exact ⟨by linarith, by linarith⟩

lemma gaussian_baseTight (hq : NormalQuantile ppf) (hd : 0 < disc) {a : DpEvent} {x y : ℝ} (ho : Props.OffGrid disc y) {p : Pld}
    (h : Mech.fromGaussian 0 (ppf x) x 1 true disc (-50) y true = some (.ok p))
    (ha : PldEventPair nr a = SampledGaussianPair x y ∨ y = 1 ∧ PldEventPair nr a = GaussianPair x) : BaseTight disc nr p a := by
  intro _
  obtain ⟨hσ, -, q0, q1⟩ := Props.gaussian_params h
  have he : 0.5 * Real.exp (-50) < 1 / 2 := by linarith [exp_neg_fifty]
  have hppf := quantile_nonpos hq hσ (by positivity) he
  obtain ⟨h1, -, h3⟩ := Props.C32_gaussian_partial h hppf hd ho
  obtain ⟨i1, i2⟩ := fromGaussian_inf h hppf (hq _ _ hσ (by positivity) (by linarith)).le hd
  obtain ⟨f, hf⟩ := Props.gaussian_curves hσ one_pos q0 q1
  obtain ⟨-, g1, g2⟩ := Props.gaussian_polygon hq (by norm_num) h hd ho hf
  obtain ⟨L, L', hL, hle⟩ := gaussian_tight hσ q0.le q1 ha
  refine ⟨h1, i1.trans exp_neg_fifty, i2.trans exp_neg_fifty, L, L', hL, fun e => ?_⟩
  rw [← Pmf.getDelta_eq_hs _ h1.valid.wfRemove, ← Pmf.getDelta_eq_hs _ h1.valid.wfAdd]
  have k1 := gridPolygon_le hd e (hf .remove)
  have k2 := gridPolygon_le hd e (hf .add)
  obtain ⟨k3, k4⟩ := hle f hf (e - disc)
  have := exp_neg_fifty
  exact ⟨by linarith [(g1 e).2], by linarith [(g2 e).2]⟩

lemma pow_hs_mono {A B : LossLaw} (h : ∀ e, A.hs e ≤ B.hs e) (n : ℕ) : ∀ e, (A.pow n).hs e ≤ (B.pow n).hs e := by
  induction n with
  | zero => exact fun e => le_rfl
  | succ n ih => exact fun e => conv_hs_mono h ih e

/-- Repeated Gaussian events. -/
lemma gaussian_newTight (hq : NormalQuantile ppf) (hd : 0 < disc) {z : PyNum} {c : ℤ} {p : Pld} (hc : 1 ≤ c)
    (h : PldLibrary.fromGaussian ppf disc z c (.float 1) = .ok p) : NewTight disc nr p (Multiset.replicate c.toNat (.gaussian z)) := by
  refine ⟨by rw [Multiset.card_replicate]; omega, fun _ _ => ?_⟩
  have hne := PldLibrary.fromGaussian_real h
  unfold PldLibrary.fromGaussian at h
  cases hz : z.real? with
  | none => exact absurd hz hne
  | some x =>
    have hx : z.val.toReal = x := by rw [real?_val hz]; rfl
    simp only [hz, show (PyNum.float 1).real? = some 1 from rfl, if_neg (show ¬ c < 0 by omega), if_neg (show ¬ c = 0 by omega)] at h
    have h := total_ok h
    obtain ⟨hσ, -, -, -⟩ := Props.gaussian_params h
    have hc0 : (0 : ℝ) < c := by exact_mod_cast hc
    have hx0 : 0 < x := by
      have := mul_pos hσ (Real.sqrt_pos.2 hc0)
      rwa [div_mul_cancel₀ _ (Real.sqrt_pos.2 hc0).ne'] at this
    have he : 0.5 * Real.exp (-50) < 1 / 2 := by linarith [exp_neg_fifty]
    have hppf := quantile_nonpos hq hσ (by positivity) he
    obtain ⟨h1, -, -⟩ := Props.C32_gaussian_partial h hppf hd (Props.offGrid_one disc)
    obtain ⟨f, hf⟩ := Props.gaussian_curves hσ one_pos one_pos le_rfl
    obtain ⟨-, g1, g2⟩ := Props.gaussian_polygon hq (by norm_num) h hd (Props.offGrid_one disc) hf
    have e1 : ((c.toNat : ℕ) : ℝ) = c := by
      have : ((c.toNat : ℕ) : ℤ) = c := Int.toNat_of_nonneg (by omega)
      exact_mod_cast this
    -- the curve of the repeated mechanism
    have curve : ∀ e, f .remove e = ((gaussLaw x).pow c.toNat).hs e := by
      intro e
      rw [gaussLaw_pow hx0 _ (by omega), e1]
      have := gaussLaw_isHs hσ one_pos e
      rw [mul_one] at this
      exact (hf .remove e).unique this
    have curve' : ∀ e, f .add e = f .remove e := fun e => (curve_add_remove _ _ (hf .add) e).unique (hf .remove e)
    obtain ⟨L, L', hL, hle⟩ := gaussian_tight (nr := nr) (a := .gaussian z) hx0 zero_le_one le_rfl (.inr ⟨rfl, by simp only [PldEventPair, hx]⟩)
    obtain ⟨f1, hf1⟩ := Props.gaussian_curves hx0 one_pos one_pos le_rfl
    have one : ∀ e, f1 .remove e = (gaussLaw x).hs e := by
      intro e
      have := gaussLaw_isHs hx0 one_pos e
      rw [mul_one] at this
      exact (hf1 .remove e).unique this
    have one' : ∀ e, f1 .add e = f1 .remove e := fun e => (curve_add_remove _ _ (hf1 .add) e).unique (hf1 .remove e)
    have p1 := pow_hs_mono (A := gaussLaw x) (B := L) (fun e => by rw [← one]; exact (hle f1 hf1 e).1) c.toNat
    have p2 := pow_hs_mono (A := gaussLaw x) (B := L') (fun e => by rw [← one, ← one']; exact (hle f1 hf1 e).2) c.toNat
    have hcard : disc ≤ c.toNat * disc := by
      rw [e1]
      have : (1 : ℝ) ≤ c := by exact_mod_cast hc
      nlinarith
    have hs0 : (0 : ℝ) ≤ 1e-22 * c.toNat := by positivity
    have key : ∀ {m : Pmf} {K : LossLaw} {k : ℝ → ℝ}, m.WF → m.NonNeg → m.pessimistic = true → totalMass m = 1 → (∀ e, k e ≤ K.hs e) →
        (∀ e, gridPolygon disc k e ≤ k (e - disc)) → (∀ e : ℝ, m.getDeltaForEpsilon (e : EReal) ≤ gridPolygon disc k e + 0.5 * Real.exp (-50)) →
        TightDir m K (c.toNat * disc) (2e-15 + 1e-22 * c.toNat) := by
      intro m K k hw hn hp hm hk hpoly hdel
      refine TightDir.weaken (a := disc) (s := 2e-15) ⟨hw, hn, hp, hm.ge, by rw [hm]; norm_num, fun e => ?_⟩ hcard (by linarith)
      rw [← Pmf.getDelta_eq_hs _ hw]
      have a1 := hdel e
      have a2 := hpoly e
      have a3 := hk (e - disc)
      have a4 : 0.5 * Real.exp (-50) ≤ 2e-15 := exp_neg_fifty.trans (by norm_num)
      linarith
    refine ⟨⟨h1.valid, List.replicate c.toNat (.gaussian z, L, L'), ?_, ?_, ?_, ?_⟩, proper_inf h1.nonneg h1.mass, proper_inf h1.nonnegAdd h1.massAdd⟩
    · rw [List.map_replicate, Multiset.coe_replicate]
    · intro y hy
      rw [List.eq_of_mem_replicate hy]; exact hL
    · rw [List.map_replicate, ← pow_eq_convAll, Multiset.card_replicate]
      exact key h1.valid.wfRemove h1.nonneg h1.pess h1.mass (fun e => by rw [curve]; exact p1 e) (fun e => gridPolygon_le hd e (hf .remove)) fun e => (g1 e).2
    · rw [List.map_replicate, ← pow_eq_convAll, Multiset.card_replicate]
      exact key h1.valid.wfAdd h1.nonnegAdd (h1.valid.pess.trans h1.pess) h1.massAdd (fun e => by rw [curve', curve]; exact p2 e)
        (fun e => gridPolygon_le hd e (hf .add)) fun e => (g2 e).2

end Verif.Spec
