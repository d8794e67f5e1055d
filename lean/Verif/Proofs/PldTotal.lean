import Verif.Spec.PldValid
import Verif.Proofs.PldLibrarySound
import Verif.Proofs.SmallestNoiseTotal
import Verif.Props.PldPmf
import Verif.Props.MixtureGaussian

/-! # The PLD accountant's operations do not raise on events with parameters in their ranges -/

namespace Verif.Spec
open MeasureTheory ProbabilityTheory Verif.Pld Verif.PldPmf Verif.Mech

/-- A PLD that can be composed further: of the given interval, covering something, with infinity mass at most `b`. -/
structure Alive (disc : ℝ) (nr : NeighborRel) (p : Pld) (b : ℝ) : Prop where
  grid : p.remove.disc = disc
  cov : ∃ M, Cov disc nr p M
  inf : p.remove.infinityMass ≤ b
  infAdd : p.add.infinityMass ≤ b

variable {disc : ℝ} {nr : NeighborRel}

lemma Dir.mass {m : Pmf} {C : DpEvent → PairProp} {τ : DpEvent → ℝ} {M : Multiset DpEvent} (h : Dir m C τ M) : 1 ≤ totalMass m := by
  obtain ⟨L, hL, -⟩ := h.law
  have := hL (fun _ => 1) monotone_const (fun _ => zero_le_one) fun _ => le_rfl
  have e := L.mass
  simp only [integral_const, smul_eq_mul, mul_one] at this
  unfold totalMass finiteMass
  linarith

lemma BaseDir.mass {m : Pmf} {τ : ℝ} {C : PairProp} (h : BaseDir m τ C) : 1 ≤ totalMass m := by
  obtain ⟨L, hL, -⟩ := h.law
  have := hL (fun _ => 1) monotone_const (fun _ => zero_le_one) fun _ => le_rfl
  have e := L.mass
  simp only [integral_const, smul_eq_mul, mul_one] at this
  unfold totalMass finiteMass
  linarith

lemma ne_nil_of_mass {m : Pmf} (h : 0 < finiteMass m.points) : m.points ≠ [] := by
  intro hc
  rw [hc] at h
  simp [finiteMass, expect] at h

/-- One direction of a composition. -/
lemma Dir.compose_total {a b : Pmf} {C : DpEvent → PairProp} {τ : DpEvent → ℝ} {M M' : Multiset DpEvent} (ha : Dir a C τ M) (hb : Dir b C τ M')
    (hd : a.disc = b.disc) {x y : ℝ} (hx : a.infinityMass ≤ x) (hy : b.infinityMass ≤ y) (hx' : x ≤ 1 / 2) (hy' : y ≤ 1 / 2) :
    ∃ c, composePmfs a b 1e-15 = .ok c ∧ c.infinityMass ≤ x + y + 1e-15 ∧ c.disc = a.disc := by
  have m1 := ha.mass
  have m2 := hb.mass
  unfold totalMass at m1 m2
  have f1 : 1 / 2 ≤ finiteMass a.points := by linarith
  have f2 : 1 / 2 ≤ finiteMass b.points := by linarith
  have f3 : 1 / 2 * (1 / 2) ≤ finiteMass a.points * finiteMass b.points := mul_le_mul f1 f2 (by norm_num) (by linarith)
  obtain ⟨c, hc⟩ := Props.C13_compose_succeeds a b 1e-15 ha.wf hb.wf ha.nonneg hb.nonneg hd (by rw [ha.pess, hb.pess])
    (ne_nil_of_mass (by linarith)) (ne_nil_of_mass (by linarith)) (.inr ⟨by norm_num, by norm_num at f3 ⊢; linarith⟩)
  have sp := composePmfs_spec hc ha.wf hb.wf
  have up := (sp.up ha.nonneg hb.nonneg ha.pess (fun _ => 0) (fun _ _ _ => le_rfl) (fun _ => le_rfl) fun _ => zero_le_one).2
  have e : convE a.points b.points (fun _ => 0) = 0 := by
    unfold convE
    simp [expect_zero]
  rw [e, expect_zero, max_eq_right (by norm_num)] at up
  refine ⟨c, hc, ?_, sp.disc⟩
  have := mul_nonneg ha.nonneg.1 hb.nonneg.1
  linarith

/-- Composition. -/
lemma Alive.compose {p q : Pld} {x y : ℝ} (hp : Alive disc nr p x) (hq : Alive disc nr q y) (hx : x ≤ 1 / 2) (hy : y ≤ 1 / 2) :
    ∃ r, p.compose q 1e-15 = .ok r ∧ Alive disc nr r (x + y + 1e-15) := by
  obtain ⟨M, cp⟩ := hp.cov
  obtain ⟨M', cq⟩ := hq.cov
  obtain ⟨c1, h1, i1, d1⟩ := cp.remove.compose_total cq.remove (hp.grid.trans hq.grid.symm) hp.inf hq.inf hx hy
  obtain ⟨c2, h2, i2, d2⟩ := cp.add.compose_total cq.add (by rw [cp.valid.disc, cq.valid.disc, hp.grid, hq.grid]) hp.infAdd hq.infAdd hx hy
  have key : ∃ r, p.compose q 1e-15 = .ok r ∧ r.remove = c1 ∧ r.add.infinityMass ≤ x + y + 1e-15 := by
    unfold Pld.compose
    rw [h1]
    simp only
    split_ifs
    · exact ⟨_, rfl, rfl, i1⟩
    · rw [h2]
      exact ⟨_, rfl, rfl, i2⟩
  obtain ⟨r, hr, e1, e2⟩ := key
  exact ⟨r, hr, by rw [e1, d1, hp.grid], ⟨_, cp.compose cq (hq.inf.trans (by linarith)) (hq.infAdd.trans (by linarith)) hr⟩, by rw [e1]; exact i1, e2⟩

/-- One direction of a self-composition. -/
lemma BaseDir.self_total {nfl : ℕ → ℕ} (hnfl : ∀ k, k ≤ nfl k) {m : Pmf} {τ : ℝ} {C : PairProp} (hm : BaseDir m τ C) {n : ℤ} (hn : 1 ≤ n)
    (hn' : n ≤ 10 ^ 21) : ∃ c, m.selfCompose nfl n 1e-15 = .ok c ∧ c.infinityMass ≤ n * 1e-22 + 2e-15 ∧ c.disc = m.disc := by
  obtain ⟨c, hc⟩ := Pmf.selfCompose_ok_trunc nfl m n (by omega) hn' hm.wf hm.nonneg hm.mass hm.inf
  obtain ⟨-, sp⟩ := Pmf.selfCompose_spec hnfl hm.wf hm.inf_le hc
  refine ⟨c, hc, ?_, sp.disc⟩
  have up := (sp.up hm.nonneg hm.pess (by norm_num) (fun _ => 0) (fun _ _ _ => le_rfl) (fun _ => le_rfl) fun _ => zero_le_one).2
  have e : nfold m.points n.toNat (fun _ => 0) = 0 := by
    rw [← expect_nfoldPts]; simp
  rw [e] at up
  simp only [expect_zero] at up
  have hb := one_add_mul_le_pow (a := -m.infinityMass) (by have := hm.inf_le; linarith) n.toNat
  rw [← sub_eq_add_neg] at hb
  have hn0 : ((n.toNat : ℕ) : ℝ) = n := by
    have : ((n.toNat : ℕ) : ℤ) = n := Int.toNat_of_nonneg (by omega)
    exact_mod_cast this
  rw [hn0] at hb
  have h3 : (n : ℝ) * m.infinityMass ≤ n * 1e-22 := mul_le_mul_of_nonneg_left hm.inf (by exact_mod_cast (by omega : 0 ≤ n))
  norm_num at up h3 ⊢
  linarith

/-- Self-composition of the PLD of a mechanism. -/
lemma BaseCov.self_total {nfl : ℕ → ℕ} (hnfl : ∀ k, k ≤ nfl k) {p : Pld} {a : DpEvent} (hp : BaseCov disc nr p a) (ha : DiscFine disc a)
    (hd : p.remove.disc = disc) {n : ℤ} (hn : 1 ≤ n) (hn' : n ≤ 10 ^ 21) :
    ∃ r, p.selfCompose nfl n 1e-15 = .ok r ∧ Alive disc nr r (n * 1e-22 + 2e-15) := by
  obtain ⟨hv, b1, b2⟩ := hp ha
  obtain ⟨c1, h1, i1, d1⟩ := b1.self_total hnfl hn hn'
  obtain ⟨c2, h2, i2, d2⟩ := b2.self_total hnfl hn hn'
  have key : ∃ r, p.selfCompose nfl n 1e-15 = .ok r ∧ r.remove = c1 ∧ r.add.infinityMass ≤ n * 1e-22 + 2e-15 := by
    unfold Pld.selfCompose
    rw [h1]
    simp only
    split_ifs
    · exact ⟨_, rfl, rfl, i1⟩
    · rw [h2]
      exact ⟨_, rfl, rfl, i2⟩
  obtain ⟨r, hr, e1, e2⟩ := key
  refine ⟨r, hr, by rw [e1, d1, hd], ⟨_, (hp.selfCompose hnfl hn hr ?_ ?_).1⟩, by rw [e1]; exact i1, e2⟩
  · rw [Multiset.card_replicate]; omega
  · intro x hx
    rw [Multiset.eq_of_mem_replicate hx]; exact ha

/-! ### Constructors -/

variable {ppf : ℝ → ℝ → ℝ}

lemma FiniteNonneg.real {z : PyNum} (h : FiniteNonneg z) : ∃ x : ℝ, z.real? = some x ∧ 0 ≤ x ∧ z.val = (x : EReal) := by
  obtain ⟨h0, h1⟩ := h
  cases z with
  | int n => exact ⟨n, rfl, by have : (0 : EReal) ≤ ((n : ℝ) : EReal) := h0; exact_mod_cast this, rfl⟩
  | float x => exact ⟨x, rfl, by have : (0 : EReal) ≤ ((x : ℝ) : EReal) := h0; exact_mod_cast this, rfl⟩
  | inf => exact absurd rfl h1

lemma FiniteNonneg.pos {z : PyNum} (h : FiniteNonneg z) (h0 : z.val ≠ 0) : ∃ x : ℝ, z.real? = some x ∧ 0 < x ∧ z.val = (x : EReal) := by
  obtain ⟨x, h1, h2, h3⟩ := h.real
  refine ⟨x, h1, lt_of_le_of_ne h2 fun hc => h0 ?_, h3⟩
  rw [h3, ← hc]; rfl

lemma gaussian_ok (hq : NormalQuantile ppf) (hd : 0 < disc) {σ q : ℝ} (hσ : 0 < σ) (q0 : 0 < q) (q1 : q ≤ 1) (hg : Props.OffGrid disc q) :
    ∃ p, Mech.fromGaussian 0 (ppf σ) σ 1 true disc (-50) q true = some (.ok p) ∧ p.remove.disc = disc ∧
      p.remove.infinityMass ≤ 1e-22 ∧ p.add.infinityMass ≤ 1e-22 := by
  have he : 0.5 * Real.exp (-50) < 1 / 2 := by linarith [exp_neg_fifty]
  have hppf := quantile_nonpos hq hσ (by positivity) he
  obtain ⟨N, hN⟩ := Props.C32_gaussian_accepts (ppf := ppf σ) (σ := σ) (s := 1) (lb := -50) true true hσ (by norm_num)
    one_pos q0 q1 hppf hd hg
  obtain ⟨p, hp⟩ := hN (N + 1) (by omega)
  have hp : Mech.fromGaussian 0 (ppf σ) σ 1 true disc (-50) q true = some (.ok p) := by
    rw [← hp]
    unfold Mech.fromGaussian
    congr 1
  obtain ⟨i1, i2⟩ := fromGaussian_inf hp hppf (hq _ _ hσ (by positivity) (by linarith)).le hd
  exact ⟨p, hp, (Props.C32_gaussian_partial hp hppf hd hg).2.1, i1.trans exp_neg_fifty, i2.trans exp_neg_fifty⟩

lemma laplace_ok (hd : 0 < disc) {b q : ℝ} (hb : 0 < b) (q0 : 0 < q) (q1 : q ≤ 1) (hg : Props.OffGrid disc q) :
    ∃ p, Mech.fromLaplace 0 b 1 true disc q true = some (.ok p) ∧ p.remove.disc = disc := by
  obtain ⟨N, hN⟩ := Props.C32_laplace_accepts (b := b) (s := 1) true true hb one_pos q0 q1 hd hg
  obtain ⟨p, hp⟩ := hN (N + 1) (by omega)
  have hp : Mech.fromLaplace 0 b 1 true disc q true = some (.ok p) := by
    rw [← hp]
    unfold Mech.fromLaplace
    congr 1
  exact ⟨p, hp, (Props.C32_laplace_partial hp hd hg).2.1⟩

lemma gaussian_alive (hq : NormalQuantile ppf) (hd : 0 < disc) {z : PyNum} (hz : FiniteNonneg z) (h0 : z.val ≠ 0) {c : ℤ} (hc : 1 ≤ c)
    (hc' : c ≤ 10 ^ 21) : ∃ p, PldLibrary.fromGaussian ppf disc z c (.float 1) = .ok p ∧ Alive disc nr p 1e-22 := by
  obtain ⟨x, h1, hx, -⟩ := hz.pos h0
  have hc0 : (0 : ℝ) < c := by exact_mod_cast hc
  obtain ⟨p, hp, e1, e2, e3⟩ := gaussian_ok hq hd (div_pos hx (Real.sqrt_pos.2 hc0)) one_pos le_rfl (Props.offGrid_one disc)
  have hf : PldLibrary.fromGaussian ppf disc z c (.float 1) = .ok p := by
    unfold PldLibrary.fromGaussian
    simp only [h1, show (PyNum.float 1).real? = some 1 from rfl, if_neg (show ¬ c < 0 by omega), if_neg (show ¬ c = 0 by omega)]
    rw [hp]; rfl
  refine ⟨p, hf, e1, ⟨_, (gaussian_new hq hd hc hf ?_ ?_).1⟩, e2, e3⟩
  · rw [Multiset.card_replicate]; omega
  · intro a ha
    rw [Multiset.eq_of_mem_replicate ha]; trivial

lemma laplace_alive (hd : 0 < disc) {z : PyNum} (hz : FiniteNonneg z) (h0 : z.val ≠ 0) :
    ∃ p, PldLibrary.fromLaplace disc z (.float 1) = .ok p ∧ BaseCov disc nr p (.laplace z) ∧ p.remove.disc = disc := by
  obtain ⟨x, h1, hx, -⟩ := hz.pos h0
  obtain ⟨p, hp, e1⟩ := laplace_ok hd hx one_pos le_rfl (Props.offGrid_one disc)
  have hf : PldLibrary.fromLaplace disc z (.float 1) = .ok p := by
    unfold PldLibrary.fromLaplace
    simp only [h1, show (PyNum.float 1).real? = some 1 from rfl]
    rw [hp]; rfl
  exact ⟨p, hf, laplace_base hd hf, e1⟩

lemma real_unit {q : PyNum} (h0 : 0 ≤ q.val) (h1 : q.val ≤ 1) (hn : q.val ≠ 0) : ∃ y : ℝ, q.real? = some y ∧ 0 < y ∧ y ≤ 1 := by
  obtain ⟨y, g1, g2, g3⟩ := FiniteNonneg.pos (z := q) ⟨h0, fun hc => by rw [hc] at h1; exact absurd h1 (by decide)⟩ hn
  refine ⟨y, g1, g2, ?_⟩
  rw [g3] at h1
  exact_mod_cast h1

lemma poissonGaussian_alive (hq : NormalQuantile ppf) (hd : 0 < disc) {z q : PyNum} (hz : FiniteNonneg z) (h0 : z.val ≠ 0) (q0 : 0 ≤ q.val)
    (q1 : q.val ≤ 1) (hn : q.val ≠ 0) (hg : GridFree disc q) :
    ∃ p, PldLibrary.fromGaussian ppf disc z 1 q = .ok p ∧ BaseCov disc nr p (.poissonSampled q (.gaussian z)) ∧ p.remove.disc = disc := by
  obtain ⟨x, h1, hx, -⟩ := hz.pos h0
  obtain ⟨y, g1, y0, y1⟩ := real_unit q0 q1 hn
  obtain ⟨p, hp, e1, -, -⟩ := gaussian_ok hq hd hx y0 y1 (gridFree_off g1 hn hg)
  have hf : PldLibrary.fromGaussian ppf disc z 1 q = .ok p := by
    unfold PldLibrary.fromGaussian
    simp only [h1, g1, if_neg (show ¬ (1 : ℤ) < 0 by omega), if_neg (show ¬ (1 : ℤ) = 0 by omega), Int.cast_one, Real.sqrt_one, div_one]
    rw [hp]; rfl
  exact ⟨p, hf, poissonGaussian_base hq hd hn hf, e1⟩

lemma poissonLaplace_alive (hd : 0 < disc) {z q : PyNum} (hz : FiniteNonneg z) (h0 : z.val ≠ 0) (q0 : 0 ≤ q.val)
    (q1 : q.val ≤ 1) (hn : q.val ≠ 0) (hg : GridFree disc q) :
    ∃ p, PldLibrary.fromLaplace disc z q = .ok p ∧ BaseCov disc nr p (.poissonSampled q (.laplace z)) ∧ p.remove.disc = disc := by
  obtain ⟨x, h1, hx, -⟩ := hz.pos h0
  obtain ⟨y, g1, y0, y1⟩ := real_unit q0 q1 hn
  obtain ⟨p, hp, e1⟩ := laplace_ok hd hx y0 y1 (gridFree_off g1 hn hg)
  have hf : PldLibrary.fromLaplace disc z q = .ok p := by
    unfold PldLibrary.fromLaplace
    simp only [h1, g1]
    rw [hp]; rfl
  exact ⟨p, hf, poissonLaplace_base hd hn hf, e1⟩

/-- Infinity mass of a discretization without truncation: the outcomes with probability zero under the second distribution. -/
lemma RoundedSpec.inf_eq {O : Type} [DecidableEq O] {lower upper : LogPmf O} {disc : ℝ} {m : Pmf} (h : RoundedSpec lower upper true disc ⊥ m) :
    m.infinityMass = ∑ o ∈ outcomes lower upper, if prob lower o = 0 then prob upper o else 0 := by
  have := h.sum fun _ => 0
  rw [expect_zero, add_zero] at this
  rw [this]
  refine Finset.sum_congr rfl fun o _ => ?_
  unfold contribution prob entryLoss
  cases hl : LogPmf.get lower o using WithBot.recBotCoe with
  | bot => simp [expLog]
  | coe l =>
    have : expLog ((l : ℝ) : LogProb) ≠ 0 := by
      rw [expLog_coe]; exact (Real.exp_pos l).ne'
    rw [if_neg this]
    cases hu : LogPmf.get upper o using WithBot.recBotCoe with
    | bot => simp [expLog]
    | coe u => simp

lemma rr_alive (hd : 0 < disc) {n : PyNum} {k : ℤ} (hnr : ReplaceRel nr) (hk : 2 ≤ k) (h0 : 0 ≤ n.val) (h1 : n.val < 1) (hn : n.val ≠ 0) :
    ∃ p, PldLibrary.fromRR disc n k nr = .ok p ∧ Alive disc nr p 0 := by
  obtain ⟨x, g1, x0, x1⟩ := FiniteNonneg.pos (z := n) ⟨h0, fun hc => by rw [hc] at h1; exact absurd h1 (by decide)⟩ hn
  have xlt : x < 1 := by rw [x1] at h1; exact_mod_cast h1
  obtain ⟨k', rfl⟩ : ∃ k' : ℕ, k = k' := ⟨k.toNat, by omega⟩
  have hk2 : 2 ≤ k' := by omega
  have hk0 : (0 : ℝ) < k' := by exact_mod_cast (by omega : 0 < k')
  have key : ∃ p, PldLibrary.fromRR disc n k' nr = .ok p ∧ p.remove.disc = disc ∧ p.remove.infinityMass ≤ 0 ∧ p.add.infinityMass ≤ 0 := by
    unfold PldLibrary.fromRR
    simp only [g1]
    have hk1 : (2 : ℝ) ≤ k' := by exact_mod_cast hk2
    have c1 : 1 - x + x / k' ≠ 0 := by have : 0 < x / k' := by positivity
                                       linarith
    have c2 : x / (k' : ℝ) ≠ 0 := by positivity
    rcases hnr with rfl | rfl
    · obtain ⟨hl, hu⟩ := rr_nodup x k'
      rw [rr_eq_replaceOne x0 xlt hk2]
      obtain ⟨p, h, hv, hs, hr, -⟩ := fromTwoPmfs_spec _ _ hl hu true hd ⊥ true
      have hi : p.remove.infinityMass ≤ 0 := by
        rw [RoundedSpec.inf_eq hr, rr_sum x0 xlt hk2 fun a b => if b = 0 then a else 0, if_neg c1, if_neg c2]
        split_ifs with h2 h3
        · simp
        · simp [h3]
        · simp
      exact ⟨p, h, hr.disc, hi, by rw [hv.symm hs]; exact hi⟩
    · obtain ⟨hl, hu⟩ := rrs_nodup x k'
      obtain ⟨ho, a0, a1, b0, b1⟩ := rrs_prob x0 xlt hk2
      rw [rr_eq_replaceSpecial x0 xlt hk2]
      obtain ⟨p, h, hv, hs, hr, hr'⟩ := fromTwoPmfs_spec _ _ hl hu true hd ⊥ false
      have hr' := hr' rfl
      have c3 : ((k' : ℝ) - 1) * (1 / k') ≠ 0 := mul_ne_zero (by linarith) (by positivity)
      have c4 : ((k' : ℝ) - 1) * (x / k') ≠ 0 := mul_ne_zero (by linarith) c2
      have c5 : (1 : ℝ) / k' ≠ 0 := by positivity
      refine ⟨p, h, hr.disc, ?_, ?_⟩
      · rw [RoundedSpec.inf_eq hr, ho, Finset.sum_pair (by decide), b0, b1, if_neg c5, if_neg c3]; simp
      · rw [RoundedSpec.inf_eq hr', outcomes_comm, ho, Finset.sum_pair (by decide), a0, a1, if_neg c1, if_neg c4]; simp
  obtain ⟨p, hp, e1, e2, e3⟩ := key
  exact ⟨p, hp, e1, ⟨_, (rr_new hd hnr hp (by simp) (by simp [DiscFine])).1⟩, e2, e3⟩

lemma mapM_finite : ∀ {l : List PyNum}, (∀ x ∈ l, FiniteNonneg x) → l.mapM PyNum.real? = some (l.map fun x => x.val.toReal)
  | [], _ => rfl
  | a :: l, h => by
      obtain ⟨x, h1, -, h3⟩ := (h a (by simp)).real
      rw [List.mapM_cons, h1, mapM_finite fun x hx => h x (by simp [hx]), List.map_cons, h3]
      rfl

lemma mixture_alive (hq : NormalQuantile ppf) (hd : 0 < disc) {σ : PyNum} {ss ps : List PyNum} (hσ : FiniteNonneg σ) (h0 : σ.val ≠ 0)
    (h : MixtureOk disc σ ss ps) :
    ∃ p, PldLibrary.fromMixture ppf disc σ ss ps = .ok p ∧ BaseCov disc nr p (.mixtureOfGaussians σ ss ps) ∧ p.remove.disc = disc := by
  obtain ⟨x, h1, hx, hx'⟩ := hσ.pos h0
  have s1 := mapM_finite h.sens
  have s2 := mapM_finite h.probs
  have hsum : ((mixturePairs ss ps).map Prod.snd).sum = 1 := h.fine.1
  have hnn : ∀ l : List PyNum, (∀ y ∈ l, FiniteNonneg y) → ∀ y ∈ l.map (fun x => x.val.toReal), 0 ≤ y := by
    intro l hl y hy
    obtain ⟨a, ha, rfl⟩ := List.mem_map.1 hy
    exact EReal.toReal_nonneg (hl a ha).1
  have hc : ∀ c ∈ mixturePairs ss ps, 0 ≤ c.2 ∧ (c.2 ≠ 0 → 0 ≤ c.1) := by
    intro c hc
    have := List.of_mem_zip (a := c.1) (b := c.2) hc
    exact ⟨hnn ps h.probs _ this.2, fun _ => hnn ss h.sens _ this.1⟩
  have e : σ.val.toReal = x := by rw [hx']; rfl
  have hdisc := h.discOk
  rw [e] at hdisc
  obtain ⟨N, hN⟩ := Props.C70_pld_exists (lb := -50) (σ := x) (sens := ss.map fun x : PyNum => x.val.toReal) (probs := ps.map fun x : PyNum => x.val.toReal)
    hq hx (by norm_num) hd (by simp [h.len]) hc h.pos hsum hdisc
  obtain ⟨p, hp⟩ := hN N le_rfl
  have hex : ∃ r N, ∀ fuel ≥ N, Mixture.fromMixture fuel (ppf x) x (ss.map fun x => x.val.toReal) (ps.map fun x => x.val.toReal) disc (-50) = some r :=
    ⟨_, N, Mixture.fromMixture_mono hp⟩
  have hfm : PldLibrary.fromMixture ppf disc σ ss ps = .ok p := by
    unfold PldLibrary.fromMixture
    simp only [h1, s1, s2, dif_pos hex]
    obtain ⟨M, hM⟩ := hex.choose_spec
    have := hM (max M N) (le_max_left _ _)
    rw [Mixture.fromMixture_mono hp _ (le_max_right _ _)] at this
    exact (Option.some.inj this).symm
  refine ⟨p, hfm, mixture_base hq hd hfm, ?_⟩
  obtain ⟨r, a, hr, ha, rfl⟩ := Mixture.fromMixture_ok hp
  exact (Mixture.singlePmf_law hq (by norm_num) hd hsum hr).1.2.2.1

/-! ### The traversal -/

/-- A state after at most `n` applications. -/
def Running (disc : ℝ) (nr : NeighborRel) (s : PldState Pld) (n : ℕ) : Prop := Alive disc nr s.pld (n * 4e-15)

lemma Running.mono {s : PldState Pld} {n m : ℕ} (h : Running disc nr s n) (hm : n ≤ m) : Running disc nr s m := by
  have : (n : ℝ) ≤ m := by exact_mod_cast hm
  exact ⟨h.grid, h.cov, h.inf.trans (by norm_num; linarith), h.infAdd.trans (by norm_num; linarith)⟩

lemma running_new {nfl : ℕ → ℕ} {s : PldState Pld} {n : ℕ} (hs : Running disc nr s n) {o : Except Err Pld} {c : ℕ} (hc : 1 ≤ c) (hn : n + c ≤ 10 ^ 14)
    {q : Pld} (ho : o = .ok q) (hq : Alive disc nr q (c * 1e-22 + 2e-15)) :
    ∃ s', PldAccountant.composeWith (PldLibrary.fns nfl ppf disc) s o = (s', .ok none) ∧ Running disc nr s' (n + c) := by
  have hn' : (n : ℝ) + c ≤ 10 ^ 14 := by exact_mod_cast hn
  have hc0 : (1 : ℝ) ≤ c := by exact_mod_cast hc
  have hn0 : (0 : ℝ) ≤ n := Nat.cast_nonneg n
  obtain ⟨r, hr, ha⟩ := Alive.compose hs hq (by norm_num at *; linarith) (by norm_num at *; linarith)
  refine ⟨{ s with pld := r }, ?_, ?_⟩
  · unfold PldAccountant.composeWith
    rw [ho]
    have : (PldLibrary.fns nfl ppf disc).compose s.pld q = .ok r := hr
    simp only [this]
  · refine ⟨ha.grid, ha.cov, ha.inf.trans ?_, ha.infAdd.trans ?_⟩ <;> push_cast <;> norm_num <;> linarith

/-- An elementary event. -/
lemma atom_total {nfl : ℕ → ℕ} (hnfl : ∀ k, k ≤ nfl k) (hq : NormalQuantile ppf) (hd : 0 < disc) {a : DpEvent} (ha : PldOk disc nr a)
    {c : ℤ} (hc : 1 ≤ c) {s : PldState Pld} {n : ℕ} (hs : Running disc nr s n) (hn : n + c.toNat ≤ 10 ^ 14) :
    ∃ s', PldAccountant.maybeCompose (PldLibrary.fns nfl ppf disc) nr a c true s = (s', .ok none) ∧ Running disc nr s' (n + c.toNat) := by
  have h21 : c ≤ 10 ^ 21 := by omega
  have hskip : Running disc nr s (n + c.toNat) := hs.mono (by omega)
  have hmark : ∃ s', PldAccountant.markNonDp s = (s', .ok none) ∧ Running disc nr s' (n + c.toNat) := ⟨{ s with nonDp := true }, rfl, hskip⟩
  have hcast : ((c.toNat : ℕ) : ℝ) = c := by
    have : ((c.toNat : ℕ) : ℤ) = c := Int.toNat_of_nonneg (by omega)
    exact_mod_cast this
  have hself : ∀ {o : Except Err Pld} {p : Pld} {a : DpEvent}, o = .ok p → BaseCov disc nr p a → DiscFine disc a → p.remove.disc = disc →
      ∃ s', PldAccountant.composeWith (PldLibrary.fns nfl ppf disc) s (o >>= fun p => (PldLibrary.fns nfl ppf disc).selfCompose p c) =
        (s', .ok none) ∧ Running disc nr s' (n + c.toNat) := by
    intro o p a ho hb hf hp
    obtain ⟨r, hr, hal⟩ := hb.self_total hnfl hf hp hc h21
    rw [← hcast] at hal
    refine running_new hs (by omega) hn (q := r) ?_ hal
    rw [ho]
    exact hr
  have hnew : ∀ {o : Except Err Pld} {p : Pld} {x : ℝ}, o = .ok p → Alive disc nr p x → x ≤ 1e-15 →
      ∃ s', PldAccountant.composeWith (PldLibrary.fns nfl ppf disc) s o = (s', .ok none) ∧ Running disc nr s' (n + c.toNat) := by
    intro o p x ho hp hx
    have h0 : (0 : ℝ) ≤ (c.toNat : ℕ) := Nat.cast_nonneg _
    have : x ≤ (c.toNat : ℕ) * 1e-22 + 2e-15 := by norm_num at *; linarith
    exact running_new hs (by omega) hn ho ⟨hp.grid, hp.cov, hp.inf.trans this, hp.infAdd.trans this⟩
  match a, ha with
  | .noOp, _ => exact ⟨s, by simp [PldAccountant.maybeCompose], hskip⟩
  | .nonPrivate, _ => simpa only [PldAccountant.maybeCompose, if_true] using hmark
  | .gaussian z, ha =>
    simp only [PldAccountant.maybeCompose, if_true]
    split_ifs with h0
    · exact hmark
    · obtain ⟨p, hp, hal⟩ := gaussian_alive (nr := nr) hq hd ha ((PldAccountant.isZero_iff' z).1 (by simpa using h0)) hc h21
      exact hnew hp hal (by norm_num)
  | .laplace z, ha =>
    simp only [PldAccountant.maybeCompose, if_true]
    split_ifs with h0
    · exact hmark
    · obtain ⟨p, hp, hb, hdp⟩ := laplace_alive (nr := nr) hd ha ((PldAccountant.isZero_iff' z).1 (by simpa using h0))
      exact hself hp hb trivial hdp
  | .poissonSampled q (.gaussian z), ha =>
    obtain ⟨h1, h2, h3, h4, h5⟩ := ha
    simp only [PldAccountant.maybeCompose, if_true, if_pos (show nr = .addOrRemoveOne ∨ nr = .replaceSpecial from h1)]
    split_ifs with h6 h7
    · exact ⟨s, rfl, hskip⟩
    · exact hmark
    · obtain ⟨p, hp, hb, hdp⟩ := poissonGaussian_alive (nr := nr) hq hd h4 ((PldAccountant.isZero_iff' z).1 (by simpa using h7)) h2 h3
        ((PldAccountant.isZero_iff' q).1 (by simpa using h6)) h5
      exact hself hp hb trivial hdp
  | .poissonSampled q (.laplace z), ha =>
    obtain ⟨h1, h2, h3, h4, h5⟩ := ha
    simp only [PldAccountant.maybeCompose, if_true, if_pos (show nr = .addOrRemoveOne ∨ nr = .replaceSpecial from h1)]
    split_ifs with h6 h7
    · exact ⟨s, rfl, hskip⟩
    · exact hmark
    · obtain ⟨p, hp, hb, hdp⟩ := poissonLaplace_alive (nr := nr) hd h4 ((PldAccountant.isZero_iff' z).1 (by simpa using h7)) h2 h3
        ((PldAccountant.isZero_iff' q).1 (by simpa using h6)) h5
      exact hself hp hb trivial hdp
  | .randomizedResponse p k, ha =>
    obtain ⟨h1, h2⟩ := ha
    simp only [PldAccountant.maybeCompose, if_true, if_pos (show nr = .replaceOne ∨ nr = .replaceSpecial from h1)]
    split_ifs with h3 h4
    · exact ⟨s, rfl, hskip⟩
    · exact hmark
    · obtain ⟨h5, h6, h7⟩ := h2.resolve_left h3
      obtain ⟨p', hp, hal⟩ := rr_alive hd h1 h5 h6 h7 ((PldAccountant.isZero_iff' p).1 (by simpa using h4))
      exact hnew hp hal (by norm_num)
  | .mixtureOfGaussians σ ss ps, ha =>
    simp only [PldAccountant.maybeCompose, if_true]
    split_ifs with h1 h2
    · exact ⟨s, rfl, hskip⟩
    · exact hmark
    · rcases ha with ⟨x, rfl, hx⟩ | ⟨g1, g2⟩
      · exact absurd ((PldAccountant.isZero_iff x).2 hx) h1
      · have h0 := (PldAccountant.isZero_iff' σ).1 (by simpa using h2)
        obtain ⟨p, hp, hb, hdp⟩ := mixture_alive (nr := nr) hq hd g1 h0 (g2 h0)
        exact hself hp hb (g2 h0).fine hdp

lemma mem_repeatList {n : ℤ} (hn : 1 ≤ n) {l : List DpEvent} {a : DpEvent} (h : a ∈ l) : a ∈ repeatList n l := by
  unfold repeatList
  rw [List.mem_flatten]
  exact ⟨l, List.mem_replicate.2 ⟨by omega, rfl⟩, h⟩

lemma length_repeatList (n : ℤ) (l : List DpEvent) : (repeatList n l).length = n.toNat * l.length := by
  unfold repeatList
  simp

/-- `e` is an elementary event. -/
lemma expand_cases (e : DpEvent) : e = .noOp ∨ (∃ e' m, e = .selfComposed e' m) ∨ (∃ es, e = .composed es) ∨ expand e = [e] := by
  cases e with
  | noOp => exact .inl rfl
  | selfComposed e m => exact .inr (.inl ⟨e, m, rfl⟩)
  | composed es => exact .inr (.inr (.inl ⟨es, rfl⟩))
  | _ => exact .inr (.inr (.inr (by simp [expand])))

section
variable {nfl : ℕ → ℕ}

mutual
theorem event_total (hnfl : ∀ k, k ≤ nfl k) (hq : NormalQuantile ppf) (hd : 0 < disc) : ∀ (e : DpEvent), WfCounts e →
    (∀ a ∈ expand e, PldOk disc nr a) → ∀ (c : ℤ), 1 ≤ c → ∀ (s : PldState Pld) (n : ℕ), Running disc nr s n →
    n + c.toNat * (expand e).length ≤ 10 ^ 14 →
    ∃ s', PldAccountant.maybeCompose (PldLibrary.fns nfl ppf disc) nr e c true s = (s', .ok none) ∧
      Running disc nr s' (n + c.toNat * (expand e).length)
  | .noOp, _, _, c, _, s, n, hs, _ => ⟨s, by simp [PldAccountant.maybeCompose], by simpa [expand] using hs⟩
  | .selfComposed e m, hw, ha, c, hc, s, n, hs, hn => by
      rw [WfCounts] at hw
      rw [expand] at ha hn ⊢
      simp only [PldAccountant.maybeCompose]
      have e1 : c.toNat * (repeatList m (expand e)).length = (m * c).toNat * (expand e).length := by
        rw [length_repeatList, Int.toNat_mul (by omega) (by omega)]; ring
      rw [e1] at hn ⊢
      exact event_total hnfl hq hd e hw.2 (fun a h => ha a (mem_repeatList hw.1 h)) (m * c) (by nlinarith [hw.1]) s n hs hn
  | .composed es, hw, ha, c, hc, s, n, hs, hn => by
      rw [WfCounts] at hw
      rw [expand] at ha hn ⊢
      simp only [PldAccountant.maybeCompose]
      exact events_total hnfl hq hd es hw ha c hc s n hs hn
  | .nonPrivate, _, ha, c, hc, s, n, hs, hn => by
      rw [show expand .nonPrivate = [.nonPrivate] from by simp [expand], List.length_singleton, mul_one] at hn ⊢
      exact atom_total hnfl hq hd (ha _ (by simp [expand])) hc hs hn
  | .randomizedResponse p k, _, ha, c, hc, s, n, hs, hn => by
      rw [show expand (.randomizedResponse p k) = [.randomizedResponse p k] from by simp [expand], List.length_singleton, mul_one] at hn ⊢
      exact atom_total hnfl hq hd (ha _ (by simp [expand])) hc hs hn
  | .gaussian z, _, ha, c, hc, s, n, hs, hn => by
      rw [show expand (.gaussian z) = [.gaussian z] from by simp [expand], List.length_singleton, mul_one] at hn ⊢
      exact atom_total hnfl hq hd (ha _ (by simp [expand])) hc hs hn
  | .laplace z, _, ha, c, hc, s, n, hs, hn => by
      rw [show expand (.laplace z) = [.laplace z] from by simp [expand], List.length_singleton, mul_one] at hn ⊢
      exact atom_total hnfl hq hd (ha _ (by simp [expand])) hc hs hn
  | .mixtureOfGaussians z ss ps, _, ha, c, hc, s, n, hs, hn => by
      rw [show expand (.mixtureOfGaussians z ss ps) = [.mixtureOfGaussians z ss ps] from by simp [expand], List.length_singleton, mul_one] at hn ⊢
      exact atom_total hnfl hq hd (ha _ (by simp [expand])) hc hs hn
  | .poissonSampled q e, _, ha, c, hc, s, n, hs, hn => by
      rw [show expand (.poissonSampled q e) = [.poissonSampled q e] from by simp [expand], List.length_singleton, mul_one] at hn ⊢
      exact atom_total hnfl hq hd (ha _ (by simp [expand])) hc hs hn
  | .unsupported, _, ha, c, hc, s, n, hs, hn => absurd (ha .unsupported (by simp [expand])) (by simp [PldOk])
  | .sampledWithReplacement a b e, _, ha, c, hc, s, n, hs, hn => absurd (ha (.sampledWithReplacement a b e) (by simp [expand])) (by simp [PldOk])
  | .sampledWithoutReplacement a b e, _, ha, c, hc, s, n, hs, hn =>
      absurd (ha (.sampledWithoutReplacement a b e) (by simp [expand])) (by simp [PldOk])
  | .singleEpochTreeAggregation a b, _, ha, c, hc, s, n, hs, hn =>
      absurd (ha (.singleEpochTreeAggregation a b) (by simp [expand])) (by simp [PldOk])
  | .repeatAndSelect a b e, _, ha, c, hc, s, n, hs, hn => absurd (ha (.repeatAndSelect a b e) (by simp [expand])) (by simp [PldOk])
theorem events_total (hnfl : ∀ k, k ≤ nfl k) (hq : NormalQuantile ppf) (hd : 0 < disc) : ∀ (es : List DpEvent), WfCountsL es →
    (∀ a ∈ expandList es, PldOk disc nr a) → ∀ (c : ℤ), 1 ≤ c → ∀ (s : PldState Pld) (n : ℕ), Running disc nr s n →
    n + c.toNat * (expandList es).length ≤ 10 ^ 14 →
    ∃ s', PldAccountant.composeList (PldLibrary.fns nfl ppf disc) nr es c true s = (s', .ok none) ∧
      Running disc nr s' (n + c.toNat * (expandList es).length)
  | [], _, _, c, _, s, n, hs, _ => ⟨s, by simp [PldAccountant.composeList], by simpa [expandList] using hs⟩
  | e :: es, hw, ha, c, hc, s, n, hs, hn => by
      rw [WfCountsL] at hw
      rw [expandList] at ha hn ⊢
      rw [List.length_append, mul_add, ← add_assoc] at hn ⊢
      obtain ⟨s', h1, h2⟩ := event_total hnfl hq hd e hw.1 (fun a h => ha a (List.mem_append.2 (.inl h))) c hc s n hs (by omega)
      obtain ⟨s'', h3, h4⟩ := events_total hnfl hq hd es hw.2 (fun a h => ha a (List.mem_append.2 (.inr h))) c hc s' _ h2 hn
      refine ⟨s'', ?_, h4⟩
      simp only [PldAccountant.composeList, h1, h3]
end

end

/-! ### The dry run -/

lemma atom_supported {P : Type} (F : PldFns P) {a : DpEvent} (ha : PldOk disc nr a) (c : ℤ) (s : PldState P) :
    (PldAccountant.maybeCompose F nr a c false s).2 = .ok none := by
  match a, ha with
  | .noOp, _ => simp [PldAccountant.maybeCompose]
  | .nonPrivate, _ => simp [PldAccountant.maybeCompose]
  | .gaussian z, _ => simp [PldAccountant.maybeCompose]
  | .laplace z, _ => simp [PldAccountant.maybeCompose]
  | .mixtureOfGaussians _ _ _, _ => simp [PldAccountant.maybeCompose]
  | .poissonSampled q (.gaussian z), ha =>
    simp [PldAccountant.maybeCompose, if_pos (show nr = .addOrRemoveOne ∨ nr = .replaceSpecial from ha.1)]
  | .poissonSampled q (.laplace z), ha =>
    simp [PldAccountant.maybeCompose, if_pos (show nr = .addOrRemoveOne ∨ nr = .replaceSpecial from ha.1)]
  | .randomizedResponse p k, ha =>
    simp [PldAccountant.maybeCompose, if_pos (show nr = .replaceOne ∨ nr = .replaceSpecial from ha.1)]

mutual
theorem event_supported {P : Type} (F : PldFns P) : ∀ (e : DpEvent), WfCounts e → (∀ a ∈ expand e, PldOk disc nr a) → ∀ (c : ℤ) (s : PldState P),
    (PldAccountant.maybeCompose F nr e c false s).2 = .ok none
  | .noOp, _, _, c, s => by simp [PldAccountant.maybeCompose]
  | .selfComposed e m, hw, ha, c, s => by
      rw [WfCounts] at hw
      rw [expand] at ha
      simp only [PldAccountant.maybeCompose]
      exact event_supported F e hw.2 (fun a h => ha a (mem_repeatList hw.1 h)) _ s
  | .composed es, hw, ha, c, s => by
      rw [WfCounts] at hw
      rw [expand] at ha
      simp only [PldAccountant.maybeCompose]
      exact events_supported F es hw ha c s
  | .nonPrivate, _, ha, c, s => atom_supported F (ha _ (by simp [expand])) c s
  | .randomizedResponse _ _, _, ha, c, s => atom_supported F (ha _ (by simp [expand])) c s
  | .gaussian _, _, ha, c, s => atom_supported F (ha _ (by simp [expand])) c s
  | .laplace _, _, ha, c, s => atom_supported F (ha _ (by simp [expand])) c s
  | .mixtureOfGaussians _ _ _, _, ha, c, s => atom_supported F (ha _ (by simp [expand])) c s
  | .poissonSampled _ _, _, ha, c, s => atom_supported F (ha _ (by simp [expand])) c s
  | .unsupported, _, ha, c, s => atom_supported F (ha _ (by simp [expand])) c s
  | .sampledWithReplacement _ _ _, _, ha, c, s => atom_supported F (ha _ (by simp [expand])) c s
  | .sampledWithoutReplacement _ _ _, _, ha, c, s => atom_supported F (ha _ (by simp [expand])) c s
  | .singleEpochTreeAggregation _ _, _, ha, c, s => atom_supported F (ha _ (by simp [expand])) c s
  | .repeatAndSelect _ _ _, _, ha, c, s => atom_supported F (ha _ (by simp [expand])) c s
theorem events_supported {P : Type} (F : PldFns P) : ∀ (es : List DpEvent), WfCountsL es → (∀ a ∈ expandList es, PldOk disc nr a) →
    ∀ (c : ℤ) (s : PldState P), (PldAccountant.composeList F nr es c false s).2 = .ok none
  | [], _, _, c, s => by simp [PldAccountant.composeList]
  | e :: es, hw, ha, c, s => by
      rw [WfCountsL] at hw
      rw [expandList] at ha
      have h1 := event_supported F e hw.1 (fun a h => ha a (List.mem_append.2 (.inl h))) c s
      have h2 := events_supported F es hw.2 fun a h => ha a (List.mem_append.2 (.inr h))
      simp only [PldAccountant.composeList]
      generalize PldAccountant.maybeCompose F nr e c false s = r at *
      obtain ⟨s', r⟩ := r
      simp only at h1
      subst h1
      exact h2 c s'
end

/-! ### Histories -/

lemma applications_cons (e : DpEvent) (c : ℤ) (cs : List (DpEvent × ℤ)) :
    (applications ((e, c) :: cs)).card = c.toNat * (expand e).length + (applications cs).card := by
  simp [applications]

theorem history_total {nfl : ℕ → ℕ} (hnfl : ∀ k, k ≤ nfl k) (hq : NormalQuantile ppf) (hd : 0 < disc) (cs : List (DpEvent × ℤ)) :
    (∀ p ∈ cs, 1 ≤ p.2 ∧ WfCounts p.1 ∧ ∀ a ∈ expand p.1, PldOk disc nr a) →
    ∀ (s : AcctState (PldState Pld)) (n : ℕ), s.ledger.Inv → Running disc nr s.acct n → n + (applications cs).card ≤ 10 ^ 14 →
    (composeAll (PldAccountant.accountant (PldLibrary.fns nfl ppf disc) nr) s cs).2 = true := by
  induction cs with
  | nil => intros; rfl
  | cons p cs ih =>
    intro hw s n hinv hs hn
    obtain ⟨e, c⟩ := p
    obtain ⟨w1, w2, w3⟩ := hw (e, c) (by simp)
    rw [applications_cons] at hn
    obtain ⟨a', h1, h2⟩ := event_total (nfl := nfl) hnfl hq hd e w2 w3 c w1 s.acct n hs (by omega)
    have hdry := PldAccountant.dryRun (PldLibrary.fns nfl ppf disc) nr
    have hinv' := (Accountant.compose_ledger hdry s hinv (.event e) (.int c)).1
    have hok := (Accountant.compose_ok hdry s hinv e c).2 ⟨event_supported _ e w2 w3 1 _, w1, Accountant.topCountsPos_of_wf w2, none, by
      show (PldAccountant.maybeCompose _ nr e c true s.acct).2 = _
      rw [h1]⟩
    have hacct := Accountant.compose_acct_ok hdry s e c hok
    simp only [composeAll]
    generalize (PldAccountant.accountant (PldLibrary.fns nfl ppf disc) nr).compose s (.event e) (.int c) = r at *
    obtain ⟨s', r⟩ := r
    simp only at hok hacct hinv'
    subst hok
    refine ih (fun p hp => hw p (by simp [hp])) s' (n + c.toNat * (expand e).length) hinv' ?_ (by omega)
    rw [hacct]
    show Running disc nr (PldAccountant.maybeCompose _ nr e c true s.acct).1 _
    rw [h1]
    exact h2

lemma running_init {nfl : ℕ → ℕ} (hd : 0 < disc) : Running disc nr (PldAccountant.init (PldLibrary.fns nfl ppf disc)) 0 := by
  have hc := cov_identity (nr := nr) hd
  obtain ⟨m, g, g1, g2, g3, g4, g5, g6, _⟩ := Pld.createFromRounded_symm (d := [(0, 1)]) (disc := disc) (inf := 0) (pess := true)
    (by simp [PyDict.keys]) hd
  have e1 : PldLibrary.identity disc = Pld.mk' m none := by
    unfold PldLibrary.identity Pld.identity
    rw [g]
  refine ⟨?_, ⟨0, hc⟩, ?_, ?_⟩
  all_goals show _; simp only [PldAccountant.init, PldLibrary.fns, e1]
  · exact g2
  · simp only [Pld.mk', g3]; norm_num
  · simp only [Pld.mk', g3]; norm_num

end Verif.Spec
