import Verif.Proofs.PldEndToEnd
import Verif.Proofs.NoiseSlack
import Verif.Proofs.MixtureBase

/-! # The library's PLD operations satisfy what the accountant needs: mixtures of Gaussians, and the summary -/

namespace Verif.Spec
open MeasureTheory ProbabilityTheory Verif.Pld Verif.PldPmf Verif.Mech

lemma mapM_real? {l : List PyNum} {r : List ℝ} (h : l.mapM PyNum.real? = some r) : r = l.map fun x => x.val.toReal := by
  induction l generalizing r with
  | nil => simpa using h.symm
  | cons a l ih =>
    rw [List.mapM_cons] at h
    cases ha : a.real? with
    | none => rw [ha] at h; simp at h
    | some x =>
      cases hl : l.mapM PyNum.real? with
      | none => rw [ha, hl] at h; simp at h
      | some xs =>
        rw [ha, hl] at h
        have h : some (x :: xs) = some r := h
        rw [← Option.some.inj h, List.map_cons, ← ih hl, real?_val ha]
        rfl

lemma le_foldr_max {l : List ℝ} : ∀ x ∈ l, x ≤ l.foldr max 0 := by
  induction l with
  | nil => simp
  | cons a l ih =>
    intro x hx
    rw [List.foldr_cons]
    rcases List.mem_cons.1 hx with rfl | hx
    · exact le_max_left _ _
    · exact (ih x hx).trans (le_max_right _ _)

/-- A finite set of positive numbers has a smallest element. -/
lemma exists_least {cs : List (ℝ × ℝ)} (h : ∃ c ∈ cs, c.2 ≠ 0 ∧ 0 < c.1) : ∃ s, IsLeast {x | 0 < x ∧ ∃ c ∈ cs, c.2 ≠ 0 ∧ c.1 = x} s := by
  have hfin : {x : ℝ | 0 < x ∧ ∃ c ∈ cs, c.2 ≠ 0 ∧ c.1 = x}.Finite := by
    refine (List.finite_toSet (cs.map Prod.fst)).subset ?_
    rintro x ⟨_, c, hc, _, rfl⟩
    exact List.mem_map_of_mem hc
  obtain ⟨c, hc, h2, h3⟩ := h
  obtain ⟨s, hs⟩ := hfin.exists_minimal ⟨c.1, h3, c, hc, h2, rfl⟩
  exact ⟨s, hs.prop, fun y hy => (le_total s y).elim id fun h => hs.le_of_le hy h⟩

variable {ppf : ℝ → ℝ → ℝ} {disc : ℝ} {nr : NeighborRel}

lemma mixture_base (hq : NormalQuantile ppf) (hd : 0 < disc) {d : PyNum} {ss ps : List PyNum} {p : Pld}
    (h : PldLibrary.fromMixture ppf disc d ss ps = .ok p) : BaseCov disc nr p (.mixtureOfGaussians d ss ps) := by
  rintro ⟨h1, hg⟩
  unfold PldLibrary.fromMixture at h
  cases hz : d.real? with
  | none => simp [hz] at h
  | some σ =>
    cases hs : ss.mapM PyNum.real? with
    | none => simp [hz, hs] at h
    | some sens =>
      cases hp : ps.mapM PyNum.real? with
      | none => simp [hz, hs, hp] at h
      | some probs =>
        simp only [hz, hs, hp] at h
        split_ifs at h with hex
        obtain ⟨N, hN⟩ := hex.choose_spec
        rw [h] at hN
        have hf := hN N le_rfl
        have hσ : d.val.toReal = σ := by rw [real?_val hz]; rfl
        have e1 : mixturePairs ss ps = sens.zip probs := by unfold mixturePairs; rw [← mapM_real? hs, ← mapM_real? hp]
        have e2 : (ss.map fun x => x.val.toReal) = sens := (mapM_real? hs).symm
        rw [e1] at h1 hg
        rw [hσ] at hg
        have hlb : (-50 : ℝ) < 0 := by norm_num
        obtain ⟨r, a, hr, ha, rfl⟩ := Mixture.fromMixture_ok hf
        have hok := (Mixture.singlePmf_valid hq hlb hd h1 hr).1
        obtain ⟨s, hs⟩ := exists_least (cs := sens.zip probs) (by
          obtain ⟨c, c1, c2, c3⟩ := hok.pos
          exact ⟨c, c1, c2, lt_of_le_of_ne (hok.nonneg c c1 c2) (Ne.symm c3)⟩)
        have hS : ∀ c ∈ sens.zip probs, c.1 ≤ sens.foldr max 0 := fun c hc => le_foldr_max c.1 (List.of_mem_zip hc).1
        have hs' : ∀ c ∈ sens.zip probs, c.2 ≠ 0 → 0 < c.1 → s ≤ c.1 := fun c c1 c2 c3 => hs.2 ⟨c3, c, c1, c2, rfl⟩
        have slack : eventSlack disc (.mixtureOfGaussians d ss ps) = mixError σ (sens.foldr max 0) (sens.zip probs) := by
          simp only [eventSlack, e1, e2, hσ]
        have hτ := eventSlack_nonneg (disc := disc) (.mixtureOfGaussians d ss ps)
        have hC : PldEventPair nr (.mixtureOfGaussians d ss ps) = MixturePair σ (sens.zip probs) := by
          simp only [PldEventPair, e1, hσ]
        obtain ⟨⟨w1, n1, d1, p1⟩, i1, L1, a1, l1⟩ := Mixture.singlePmf_law hq hlb hd h1 hr
        obtain ⟨⟨w2, n2, d2, p2⟩, i2, L2, a2, l2⟩ := Mixture.singlePmf_law hq hlb hd h1 ha
        have c1 := Mixture.singlePmf_curve hq hlb hd h1 hs.1.2 hs.1.1 hs' hS (hg s hs) hr
        have c2 := Mixture.singlePmf_curve hq hlb hd h1 hs.1.2 hs.1.1 hs' hS (hg s hs) ha
        rw [slack] at hτ ⊢
        rw [hC]
        have ei : (0.5 : ℝ) * Real.exp (-50) ≤ 1e-22 := by
          have := exp_neg_fifty
          have := Real.exp_pos (-50)
          norm_num at *; linarith
        refine ⟨valid_some w1 w2 (d2.trans d1.symm) (p2.trans p1.symm), ⟨w1, n1, p1, i1.trans ei, L1, a1, ?_⟩,
          ⟨w2, n2, p2, i2.trans ei, L2, a2, ?_⟩⟩
        · intro Ω _ P Q _ _ hPQ
          cases hPQ with
          | mk v vs hw =>
            refine l1 _ _ _ hτ fun e => ?_
            obtain ⟨vs', hw', e'⟩ := Mixture.changeWithin_kept (σ := σ) v hw
            rw [← e']
            exact Mixture.vec_remove hok.σ0 (hok.dist h1) hw' v (c1 e)
        · intro Ω _ P Q _ _ hPQ
          change MixturePair σ (sens.zip probs) Ω Q P at hPQ
          cases hPQ with
          | mk v vs hw =>
            refine l2 _ _ _ hτ fun e => ?_
            obtain ⟨vs', hw', e'⟩ := Mixture.changeWithin_kept (σ := σ) v hw
            rw [← e']
            exact Mixture.vec_add hok.σ0 (hok.dist h1) hw' v (c2 e)

/-- The library's operations are sound for the traversal. -/
theorem library_sound {nfl : ℕ → ℕ} (hnfl : ∀ k, k ≤ nfl k) (hq : NormalQuantile ppf) (hd : 0 < disc) :
    PldSound (PldLibrary.fns nfl ppf disc) nr (StateCov disc nr) (NewCov disc nr) (BaseCov disc nr) where
  identity := fun _ _ => cov_identity hd
  compose := by
    intro p q r l l' hp hq' h hc hg
    rw [Multiset.card_add] at hc
    have k1 := hp (by omega) fun a ha => hg a (Multiset.mem_add.2 (Or.inl ha))
    obtain ⟨k2, i1, i2⟩ := hq' (by omega) fun a ha => hg a (Multiset.mem_add.2 (Or.inr ha))
    exact k1.compose k2 i1 i2 h
  selfCompose := fun p r c a hp hc h => hp.selfCompose hnfl hc h
  vacuous := by
    intro p l a ha hp hc hg
    rw [Multiset.card_cons] at hc
    have k := hp (by omega) fun b hb => hg b (Multiset.mem_cons_of_mem hb)
    obtain ⟨h1, h2⟩ := lawFor_zero (vacuous_same (nr := nr) ha)
    exact ⟨k.valid, k.remove.vacuous eventSlack_nonneg h1, k.add.vacuous eventSlack_nonneg h2⟩
  gaussian := fun z c p _ hc h => gaussian_new hq hd hc h
  laplace := fun z p _ h => laplace_base hd h
  mixture := fun d ss ps p _ h => mixture_base hq hd h
  poissonGaussian := fun z q p _ _ h0 h => poissonGaussian_base hq hd h0 h
  poissonLaplace := fun z q p _ _ h0 h => poissonLaplace_base hd h0 h
  randomizedResponse := fun n k p hnr _ _ h => rr_new hd hnr h

end Verif.Spec
