import Verif.Proofs.MixtureBucketsWitness
import Verif.Props.MixtureGaussian

/-!
# C75: mixtures of Gaussians, privacy buckets

`from_mixture_gaussian_mechanism` with `use_connect_dots=False` or `pessimistic_estimate=False`. The boundaries of the buckets are found
by the same search as the cut-offs of `C70`, here with one loss at a time, so its initial interval need not contain the boundary if there
are three or more positive sensitivities: `C75_buckets_violated`. The optimistic variant needs the boundary to be rounded by less than the
noise: `C75_optimistic_violated`.
-/

namespace Verif.Props
open Verif Verif.Spec Verif.Pld Verif.Mixture MeasureTheory ProbabilityTheory

section
variable {σ lb disc : ℝ} {sens probs : List ℝ} {ppf : ℝ → ℝ} {fuel : ℕ} {pess dots : Bool}

lemma fromMixtureWith_ok {p : Pld} (hp : fromMixtureWith fuel ppf σ sens probs pess disc lb dots = some (.ok p)) :
    ∃ r a, singleWith fuel ppf σ sens probs pess disc lb dots .remove = some (.ok r) ∧
      singleWith fuel ppf σ sens probs pess disc lb dots .add = some (.ok a) ∧ p = Pld.mk' r (some a) := by
  unfold fromMixtureWith at hp
  split at hp
  · simp at hp
  · simp at hp
  · rename_i r hr
    split at hp
    · simp at hp
    · simp at hp
    · rename_i a ha
      simp only [Option.some.injEq] at hp
      exact ⟨r, a, hr, ha, (Except.ok.inj hp).symm⟩

lemma fromMixtureWith_of {r a : Pmf} (hr : singleWith fuel ppf σ sens probs pess disc lb dots .remove = some (.ok r))
    (ha : singleWith fuel ppf σ sens probs pess disc lb dots .add = some (.ok a)) :
    fromMixtureWith fuel ppf σ sens probs pess disc lb dots = some (.ok (Pld.mk' r (some a))) := by
  unfold fromMixtureWith
  rw [hr]; simp only []; rw [ha]

lemma singleWith_ok (hb : ¬ (dots = true ∧ pess = true)) (h1 : ((sens.zip probs).map Prod.snd).sum = 1) {adj : Adj} {pmf : Pmf}
    (hp : singleWith fuel ppf σ sens probs pess disc lb dots adj = some (.ok pmf)) :
    MkOk σ sens probs lb ∧ (⟨σ, kept sens probs, adj, pess, lb⟩ : Obj).Good ∧
      ∃ t, (⟨σ, kept sens probs, adj, pess, lb⟩ : Obj).tail fuel ppf = some (.ok t) ∧
        (⟨σ, kept sens probs, adj, pess, lb⟩ : Obj).buckets fuel t disc = some (.ok pmf) := by
  by_cases hok : MkOk σ sens probs lb
  · unfold singleWith at hp
    rw [(mk_iff σ sens probs pess lb adj).1 hok] at hp
    simp only [if_neg hb] at hp
    refine ⟨hok, ⟨hok.σ0, hok.dist h1⟩, ?_⟩
    split at hp
    · simp at hp
    · simp at hp
    · rename_i t ht
      exact ⟨t, ht, hp⟩
  · unfold singleWith at hp
    rw [(mk_iff σ sens probs pess lb adj).2 hok] at hp
    simp at hp

lemma singleWith_of (hok : MkOk σ sens probs lb) (hb : ¬ (dots = true ∧ pess = true)) {adj : Adj} {t : Mech.Tail ℝ} {r}
    (ht : (⟨σ, kept sens probs, adj, pess, lb⟩ : Obj).tail fuel ppf = some (.ok t))
    (hr : (⟨σ, kept sens probs, adj, pess, lb⟩ : Obj).buckets fuel t disc = r) :
    singleWith fuel ppf σ sens probs pess disc lb dots adj = r := by
  unfold singleWith
  rw [(mk_iff σ sens probs pess lb adj).1 hok]
  simp only [if_neg hb, ht, hr]

/-- With the default arguments it is the function of `C70`. -/
theorem C75_default (fuel : ℕ) (ppf : ℝ → ℝ) (σ : ℝ) (sens probs : List ℝ) (disc lb : ℝ) :
    fromMixtureWith fuel ppf σ sens probs true disc lb true = fromMixture fuel ppf σ sens probs disc lb := by
  have e : ∀ adj, singleWith fuel ppf σ sens probs true disc lb true adj = singlePmf fuel ppf σ sens probs disc lb adj := fun adj => by
    unfold singleWith singlePmf
    cases mk σ sens probs true lb adj <;> simp
  unfold fromMixtureWith fromMixture
  simp only [e]

lemma maxSens_kept {adj : Adj} (h : (⟨σ, kept sens probs, adj, pess, lb⟩ : Obj).Good) :
    ∃ c ∈ sens.zip probs, c.2 ≠ 0 ∧ 0 < c.1 ∧ c.1 = (⟨σ, kept sens probs, adj, pess, lb⟩ : Obj).maxSens := by
  obtain ⟨c, hc, he⟩ := List.mem_map.1 (Obj.listMax_spec (Obj.pos_ne h)).1
  obtain ⟨c1, c2⟩ := Obj.mem_pos.1 hc
  obtain ⟨c3, c4⟩ := mem_kept.1 c1
  exact ⟨c, c3, c4, c2, he⟩

lemma minSens_kept {adj : Adj} (h : (⟨σ, kept sens probs, adj, pess, lb⟩ : Obj).Good) :
    ∃ c ∈ sens.zip probs, c.2 ≠ 0 ∧ 0 < c.1 ∧ c.1 = (⟨σ, kept sens probs, adj, pess, lb⟩ : Obj).minSens := by
  obtain ⟨c, hc, he⟩ := List.mem_map.1 (Obj.listMin_spec (Obj.pos_ne h)).1
  obtain ⟨c1, c2⟩ := Obj.mem_pos.1 hc
  obtain ⟨c3, c4⟩ := mem_kept.1 c1
  exact ⟨c, c3, c4, c2, he⟩

lemma lossErr_le {adj : Adj} (h : (⟨σ, kept sens probs, adj, pess, lb⟩ : Obj).Good) {S : ℝ}
    (hS : ∀ c ∈ sens.zip probs, c.2 ≠ 0 → 0 < c.1 → c.1 ≤ S) : (⟨σ, kept sens probs, adj, pess, lb⟩ : Obj).lossErr ≤ S * 1e-6 / σ ^ 2 := by
  obtain ⟨c, c1, c2, c3, c4⟩ := maxSens_kept h
  have := hS c c1 c2 c3
  unfold Obj.lossErr
  rw [← c4]
  refine div_le_div_of_nonneg_right ?_ (sq_nonneg _)
  norm_num
  linarith

/-- The distribution is the larger of its two directions. -/
lemma with_directions {r a : Pmf} {e ε : ℝ} {adj : Adj}
    (h : Indist (mixUpper σ (kept sens probs) adj) (mixLower σ (kept sens probs) adj) e
      (match adj with | .add => a.getDeltaForEpsilon ε | .remove => r.getDeltaForEpsilon ε)) :
    Indist (mixUpper σ (kept sens probs) adj) (mixLower σ (kept sens probs) adj) e ((Pld.mk' r (some a)).getDeltaForEpsilon ε) := by
  have hmax : (Pld.mk' r (some a)).getDeltaForEpsilon ε = max (r.getDeltaForEpsilon ε) (a.getDeltaForEpsilon ε) := rfl
  rw [hmax]
  cases adj
  · exact Indist.mono h (le_max_right _ _)
  · exact Indist.mono h (le_max_left _ _)

/-- Pessimistic privacy buckets, ADD: whatever the sensitivities, the estimate is an upper bound, up to the change of the privacy loss
within the precision `1e-6` of the search. `S` bounds the sensitivities. -/
theorem C75_buckets_add (hd : 0 < disc) (h1 : ((sens.zip probs).map Prod.snd).sum = 1) {S : ℝ}
    (hS : ∀ c ∈ sens.zip probs, c.2 ≠ 0 → 0 < c.1 → c.1 ≤ S) {p : Pld}
    (hp : fromMixtureWith fuel ppf σ sens probs true disc lb false = some (.ok p)) (ε : ℝ) :
    Indist (mixUpper σ (sens.zip probs) .add) (mixLower σ (sens.zip probs) .add) (ε + S * 1e-6 / σ ^ 2) (p.getDeltaForEpsilon ε) := by
  obtain ⟨r, a, -, ha, rfl⟩ := fromMixtureWith_ok hp
  obtain ⟨hok, h, t, ht, hb⟩ := singleWith_ok (by simp) h1 ha
  have := Obj.buckets_upper h rfl hd (Obj.lossErr_nonneg h) ht (fun k x _ hx y hy =>
    Obj.inverse_upper h hx (fun z hz => by have := Obj.le_cand_add h rfl z; rwa [hz] at this) hy) hb ε
  rw [← mixUpper_kept, ← mixLower_kept]
  exact Mech.mono_eps (with_directions (adj := .add) this) (by linarith [lossErr_le h hS])

/-- Pessimistic privacy buckets with at most two positive sensitivities `s ≤ S`: the estimate is an upper bound in both directions, up to
the change of the privacy loss within the precision `1e-6` of the search, and so it is for every vector query whose random change is
bounded by the random sensitivity. Missing: three or more positive sensitivities, where REMOVE is wrong, `C75_buckets_violated`. -/
theorem C75_buckets_partial (hd : 0 < disc) (h1 : ((sens.zip probs).map Prod.snd).sum = 1) {s S : ℝ} (hsS : s ≤ S)
    (h2 : ∀ c ∈ sens.zip probs, c.2 ≠ 0 → 0 < c.1 → c.1 = s ∨ c.1 = S) {p : Pld}
    (hp : fromMixtureWith fuel ppf σ sens probs true disc lb false = some (.ok p)) (ε : ℝ) :
    (∀ adj, Indist (mixUpper σ (sens.zip probs) adj) (mixLower σ (sens.zip probs) adj) (ε + S * 1e-6 / σ ^ 2) (p.getDeltaForEpsilon ε)) ∧
    ∀ {d : ℕ} (vs : List (Vec d × ℝ)) (v : Vec d), ChangeWithin vs (sens.zip probs) →
      Indist (vecMixture σ v vs) (gaussianVec v σ) (ε + S * 1e-6 / σ ^ 2) (p.getDeltaForEpsilon ε) ∧
      Indist (gaussianVec v σ) (vecMixture σ v vs) (ε + S * 1e-6 / σ ^ 2) (p.getDeltaForEpsilon ε) := by
  have hS : ∀ c ∈ sens.zip probs, c.2 ≠ 0 → 0 < c.1 → c.1 ≤ S := fun c a b d => by
    rcases h2 c a b d with h | h <;> linarith
  have core : ∀ adj, Indist (mixUpper σ (sens.zip probs) adj) (mixLower σ (sens.zip probs) adj) (ε + S * 1e-6 / σ ^ 2)
      (p.getDeltaForEpsilon ε) := by
    intro adj
    cases adj
    · exact C75_buckets_add hd h1 hS hp ε
    · obtain ⟨r, a, hr, -, rfl⟩ := fromMixtureWith_ok hp
      obtain ⟨hok, h, t, ht, hb⟩ := singleWith_ok (by simp) h1 hr
      have htwo : ∀ c ∈ (⟨σ, kept sens probs, .remove, true, lb⟩ : Obj).pos,
          c.1 = (⟨σ, kept sens probs, .remove, true, lb⟩ : Obj).minSens ∨ c.1 = (⟨σ, kept sens probs, .remove, true, lb⟩ : Obj).maxSens := by
        intro c hc
        obtain ⟨c1, c2⟩ := Obj.mem_pos.1 hc
        obtain ⟨c3, c4⟩ := mem_kept.1 c1
        obtain ⟨x, x1, x2, x3, x4⟩ := minSens_kept h
        obtain ⟨y, y1, y2, y3, y4⟩ := maxSens_kept h
        have l1 := Obj.minSens_le h hc
        have l2 := Obj.le_maxSens h hc
        rw [← x4] at l1 ⊢
        rw [← y4] at l2 ⊢
        have pick : ∀ a b c : ℝ, (a = s ∨ a = S) → (b = s ∨ b = S) → (c = s ∨ c = S) → b ≤ a → a ≤ c → a = b ∨ a = c := by
          rintro a b c (ha | ha) (hb | hb) (hc | hc) k1 k2
          all_goals first | exact .inl (by linarith) | exact .inr (by linarith)
        exact pick _ _ _ (h2 c c3 c4 c2) (h2 x x1 x2 x3) (h2 y y1 y2 y3) l1 l2
      have := Obj.buckets_upper h rfl hd (Obj.lossErr_nonneg h) ht (fun k x _ hx y hy =>
        Obj.inverse_upper h hx (fun z hz => by have := Obj.le_cand_two h rfl htwo z; rwa [hz] at this) hy) hb ε
      rw [← mixUpper_kept, ← mixLower_kept]
      exact Mech.mono_eps (with_directions (adj := .remove) this) (by linarith [lossErr_le h hS])
  have hok : MkOk σ sens probs lb := by
    obtain ⟨r, a, hr, -, rfl⟩ := fromMixtureWith_ok hp
    exact (singleWith_ok (by simp) h1 hr).1
  refine ⟨core, fun {d} vs v hw => ?_⟩
  obtain ⟨vs', hw', e⟩ := changeWithin_kept (σ := σ) v hw
  rw [← e]
  have k : ∀ adj, Indist (mixUpper σ (kept sens probs) adj) (mixLower σ (kept sens probs) adj) (ε + S * 1e-6 / σ ^ 2)
      (p.getDeltaForEpsilon ε) := fun adj => by rw [mixUpper_kept, mixLower_kept]; exact core adj
  exact ⟨vec_remove hok.σ0 (hok.dist h1) hw' v (k .remove), vec_add hok.σ0 (hok.dist h1) hw' v (k .add)⟩

lemma one_sens {adj : Adj} (h : (⟨σ, kept sens probs, adj, pess, lb⟩ : Obj).Good) {s : ℝ}
    (h2 : ∀ c ∈ sens.zip probs, c.2 ≠ 0 → 0 < c.1 → c.1 = s) :
    (⟨σ, kept sens probs, adj, pess, lb⟩ : Obj).minSens = (⟨σ, kept sens probs, adj, pess, lb⟩ : Obj).maxSens := by
  obtain ⟨x, x1, x2, x3, x4⟩ := minSens_kept h
  obtain ⟨y, y1, y2, y3, y4⟩ := maxSens_kept h
  rw [← x4, ← y4, h2 x x1 x2 x3, h2 y y1 y2 y3]

/-- With one positive sensitivity the pessimistic estimate is an upper bound without any tolerance: the boundaries are rounded in the safe
direction. -/
theorem C75_buckets_single (hd : 0 < disc) (h1 : ((sens.zip probs).map Prod.snd).sum = 1) {s : ℝ}
    (h2 : ∀ c ∈ sens.zip probs, c.2 ≠ 0 → 0 < c.1 → c.1 = s) {p : Pld}
    (hp : fromMixtureWith fuel ppf σ sens probs true disc lb false = some (.ok p)) (ε : ℝ) :
    (∀ adj, Indist (mixUpper σ (sens.zip probs) adj) (mixLower σ (sens.zip probs) adj) ε (p.getDeltaForEpsilon ε)) ∧
    ∀ {d : ℕ} (vs : List (Vec d × ℝ)) (v : Vec d), ChangeWithin vs (sens.zip probs) →
      Indist (vecMixture σ v vs) (gaussianVec v σ) ε (p.getDeltaForEpsilon ε) ∧
      Indist (gaussianVec v σ) (vecMixture σ v vs) ε (p.getDeltaForEpsilon ε) := by
  obtain ⟨r, a, hr, ha, rfl⟩ := fromMixtureWith_ok hp
  obtain ⟨hok, hgr, tr, htr, hbr⟩ := singleWith_ok (by simp) h1 hr
  obtain ⟨-, hga, ta, hta, hba⟩ := singleWith_ok (by simp) h1 ha
  have core : ∀ adj, Indist (mixUpper σ (kept sens probs) adj) (mixLower σ (kept sens probs) adj) ε
      ((Pld.mk' r (some a)).getDeltaForEpsilon ε) := by
    intro adj
    refine with_directions ?_
    cases adj
    · have := Obj.buckets_upper hga rfl hd le_rfl hta (fun k x _ hx y hy => by
        rw [add_zero]; exact Obj.inverse_single_upper hga (one_sens hga h2) hx hy) hba ε
      rwa [add_zero] at this
    · have := Obj.buckets_upper hgr rfl hd le_rfl htr (fun k x _ hx y hy => by
        rw [add_zero]; exact Obj.inverse_single_upper hgr (one_sens hgr h2) hx hy) hbr ε
      rwa [add_zero] at this
  refine ⟨fun adj => by have := core adj; rwa [mixUpper_kept, mixLower_kept] at this, fun {d} vs v hw => ?_⟩
  obtain ⟨vs', hw', e⟩ := changeWithin_kept (σ := σ) v hw
  rw [← e]
  exact ⟨vec_remove hok.σ0 (hok.dist h1) hw' v (core .remove), vec_add hok.σ0 (hok.dist h1) hw' v (core .add)⟩

/-- The optimistic estimate with one positive sensitivity is a lower bound on every delta that is valid for both directions, up to the
change of the privacy loss within the precision `1e-6` of the search. Missing: several sensitivities; without the tolerance the claim is
false, `C75_optimistic_violated`. -/
theorem C75_optimistic_partial (hd : 0 < disc) (h1 : ((sens.zip probs).map Prod.snd).sum = 1) {s : ℝ}
    (h2 : ∀ c ∈ sens.zip probs, c.2 ≠ 0 → 0 < c.1 → c.1 = s) {p : Pld}
    (hp : fromMixtureWith fuel ppf σ sens probs false disc lb dots = some (.ok p)) (ε : ℝ) {δ : ℝ}
    (hδ : ∀ adj, Indist (mixUpper σ (sens.zip probs) adj) (mixLower σ (sens.zip probs) adj) (ε - s * 1e-6 / σ ^ 2) δ) :
    p.getDeltaForEpsilon ε ≤ δ := by
  obtain ⟨r, a, hr, ha, rfl⟩ := fromMixtureWith_ok hp
  have hmax : (Pld.mk' r (some a)).getDeltaForEpsilon ε = max (r.getDeltaForEpsilon ε) (a.getDeltaForEpsilon ε) := rfl
  have core : ∀ {adj : Adj} {pmf : Pmf}, singleWith fuel ppf σ sens probs false disc lb dots adj = some (.ok pmf) →
      pmf.getDeltaForEpsilon ε ≤ δ := by
    intro adj pmf hp
    obtain ⟨hok, h, t, ht, hb⟩ := singleWith_ok (by simp) h1 hp
    have hs := one_sens h h2
    have he : (⟨σ, kept sens probs, adj, false, lb⟩ : Obj).lossErr = s * 1e-6 / σ ^ 2 := by
      obtain ⟨y, y1, y2, y3, y4⟩ := maxSens_kept h
      unfold Obj.lossErr
      rw [← y4, h2 y y1 y2 y3]
    refine Obj.buckets_lower h rfl hd (Obj.lossErr_nonneg h) ht (fun k x _ hx => ?_) hb ε ?_
    · obtain ⟨a1, a2, a3⟩ := Obj.inverse_single_lower h hs hx
      exact ⟨a1, a2 _, fun k' x' hk _ hx' => a3 _ x' (mul_le_mul_of_nonneg_left (by exact_mod_cast hk) hd.le) hx'⟩
    · have := hδ adj
      rw [← mixUpper_kept, ← mixLower_kept] at this
      rw [he]
      exact this
  rw [hmax]
  exact max_le (core hr) (core ha)

/-- Privacy buckets return a distribution if no multiple of the discretization is so close to the limit of the privacy loss that the
implementation does not tell it from the limit; in particular if sensitivity zero is impossible. -/
theorem C75_buckets_exists {ppf : ℝ → ℝ → ℝ} (hppf : NormalQuantile ppf) (hσ : 0 < σ) (hlb : lb < 0) (hd : 0 < disc)
    (hlen : probs.length = sens.length) (hc : ∀ c ∈ sens.zip probs, 0 ≤ c.2 ∧ (c.2 ≠ 0 → 0 ≤ c.1))
    (hpos : ∃ c ∈ sens.zip probs, c.2 ≠ 0 ∧ c.1 ≠ 0) (h1 : ((sens.zip probs).map Prod.snd).sum = 1)
    (hn : ∀ k : ℤ, ¬ NearLimit (sens.zip probs) .remove (disc * k)) (pess dots : Bool) (hb : ¬ (dots = true ∧ pess = true)) :
    ∃ N, ∀ fuel ≥ N, ∃ p, fromMixtureWith fuel (ppf σ) σ sens probs pess disc lb dots = some (.ok p) := by
  have hok : MkOk σ sens probs lb := ⟨hσ, hlb.le, hlen, fun c h => (hc c h).2, hpos, .inl h1, fun c h => ⟨(hc c h).1, by
    rw [← h1]
    exact List.single_le_sum (fun x hx => by
      obtain ⟨c, hc', rfl⟩ := List.mem_map.1 hx
      exact (hc c hc').1) _ (List.mem_map_of_mem h)⟩⟩
  have hn' : ∀ (adj : Adj) (k : ℤ), ¬ NearLimit (sens.zip probs) adj (disc * k) := by
    intro adj k
    cases adj
    · intro ⟨a, b⟩
      refine hn (-k) ⟨a, ?_⟩
      unfold mixLimit at b ⊢
      simp only [] at b ⊢
      rw [← abs_neg] at b
      push_cast
      convert b using 2
      ring
    · exact hn k
  have one : ∀ adj, ∃ N, ∀ fuel ≥ N, ∃ pmf, singleWith fuel (ppf σ) σ sens probs pess disc lb dots adj = some (.ok pmf) := by
    intro adj
    have h : (⟨σ, kept sens probs, adj, pess, lb⟩ : Obj).Good := ⟨hok.σ0, hok.dist h1⟩
    have he := Real.exp_lt_one_iff.2 hlb
    have he0 := Real.exp_pos lb
    obtain ⟨N, hN⟩ := Obj.buckets_accept h (ppf := ppf σ) hd
      (hppf σ _ hσ (show 0 < 0.5 * Real.exp lb by norm_num; exact he0) (show 0.5 * Real.exp lb < 1 by linarith)) (fun k _ => by
        have := hn' adj k
        rw [← near_kept, Obj.near_iff h, not_not] at this
        exact this)
    refine ⟨N, fun fuel hf => ?_⟩
    obtain ⟨t, pmf, ht, hp⟩ := hN fuel hf
    exact ⟨pmf, singleWith_of hok hb ht hp⟩
  obtain ⟨N1, hN1⟩ := one .remove
  obtain ⟨N2, hN2⟩ := one .add
  refine ⟨max N1 N2, fun fuel hf => ?_⟩
  obtain ⟨r, hr⟩ := hN1 fuel (le_trans (le_max_left _ _) hf)
  obtain ⟨a, ha⟩ := hN2 fuel (le_trans (le_max_right _ _) hf)
  exact ⟨_, fromMixtureWith_of hr ha⟩

end

/-! ### Three sensitivities -/

lemma three_mem {c : ℝ × ℝ} (hc : c ∈ ([1, 10, 100] : List ℝ).zip [(1 / 100 : ℝ), 98 / 100, 1 / 100]) :
    c = (1, 1 / 100) ∨ c = (10, 98 / 100) ∨ c = (100, 1 / 100) := by
  simpa only [List.zip_cons_cons, List.zip_nil_right, List.mem_cons, List.not_mem_nil, or_false] using hc

lemma three_kept : kept [1, 10, 100] [1 / 100, 98 / 100, 1 / 100] = [1, 10, 100].zip [1 / 100, 98 / 100, 1 / 100] := by
  unfold kept
  rw [List.filter_eq_self]
  intro c hc
  rcases three_mem hc with rfl | rfl | rfl <;> norm_num

lemma no_zero_near {cs : List (ℝ × ℝ)} (h : ∀ c ∈ cs, c.1 ≠ 0) (adj : Adj) (e : ℝ) : ¬ NearLimit cs adj e := by
  rintro ⟨h0, -⟩
  unfold zeroProb at h0
  rw [List.filter_eq_nil_iff.2 (fun c hc => by simpa using h c hc)] at h0
  simp at h0

/-- Pessimistic privacy buckets under-report delta: sensitivities 1, 10 and 100 with probabilities 0.01, 0.98 and 0.01, noise 1, default
truncation, any discretization of at most 1. The estimate for epsilon 20 is at most 0.03, every valid delta is at least 0.9. -/
theorem C75_buckets_violated {ppf : ℝ → ℝ → ℝ} (hppf : NormalQuantile ppf) {disc : ℝ} (hd : 0 < disc) (hd1 : disc ≤ 1) :
    (∃ N, ∀ fuel ≥ N, ∃ p, fromMixtureWith fuel (ppf 1) 1 [1, 10, 100] [1 / 100, 98 / 100, 1 / 100] true disc (-50) false = some (.ok p) ∧
      p.getDeltaForEpsilon (20 : ℝ) ≤ 3 / 100) ∧
    ∀ δ, Indist (mixUpper 1 ([1, 10, 100].zip [1 / 100, 98 / 100, 1 / 100]) .remove)
      (mixLower 1 ([1, 10, 100].zip [1 / 100, 98 / 100, 1 / 100]) .remove) 20 δ → 9 / 10 ≤ δ := by
  have h1 : ((([1, 10, 100] : List ℝ).zip [(1 / 100 : ℝ), 98 / 100, 1 / 100]).map Prod.snd).sum = 1 := by norm_num
  have g := gcdf_noise (σ := 1) one_pos
  have hP : ∀ x, (mixUpper 1 ([1, 10, 100].zip [1 / 100, 98 / 100, 1 / 100]) .remove).real (Set.Iic x) =
      1 / 100 * gcdf 1 (x + 1) + 98 / 100 * gcdf 1 (x + 10) + 1 / 100 * gcdf 1 (x + 100) := by
    intro x
    rw [mixUpper, gaussMixture_real (neg_probs fun c hc => by rcases three_mem hc with rfl | rfl | rfl <;> norm_num)]
    simp only [List.zip_cons_cons, List.zip_nil_right, List.map_cons, List.map_nil, List.sum_cons, List.sum_nil, gcdf_shift,
      sub_neg_eq_add]
    ring
  have hzz := hppf 1 (0.5 * Real.exp (-50)) one_pos (by positivity) (by
    have := Real.exp_lt_one_iff.2 (show (-50 : ℝ) < 0 by norm_num)
    linarith)
  obtain ⟨z1, z2⟩ := quantile_bounds (z := ppf 1 (0.5 * Real.exp (-50))) hzz
  have hsmall : 0.5 * Real.exp (-50) ≤ 3 / 100 := by
    have h2 : Real.exp (-50) ≤ 1 / 51 := by
      rw [Real.exp_neg, ← one_div]
      refine one_div_le_one_div_of_le (by norm_num) ?_
      have := Real.add_one_le_exp 50
      linarith
    linarith
  refine ⟨?_, ?_⟩
  · obtain ⟨N, hN⟩ := C75_buckets_exists (σ := 1) (lb := -50) (sens := [1, 10, 100]) (probs := [1 / 100, 98 / 100, 1 / 100]) hppf one_pos
      (by norm_num) hd rfl (fun c hc => by rcases three_mem hc with rfl | rfl | rfl <;> norm_num) ⟨(1, 1 / 100), by simp, by norm_num, by norm_num⟩
      h1 (fun k => no_zero_near (fun c hc => by rcases three_mem hc with rfl | rfl | rfl <;> norm_num) _ _) true false (by simp)
    refine ⟨N, fun fuel hf => ?_⟩
    obtain ⟨p, hp⟩ := hN fuel hf
    refine ⟨p, hp, ?_⟩
    obtain ⟨r, a, hr, ha, rfl⟩ := fromMixtureWith_ok hp
    have hmax : (Pld.mk' r (some a)).getDeltaForEpsilon (20 : ℝ) = max (r.getDeltaForEpsilon (20 : ℝ)) (a.getDeltaForEpsilon (20 : ℝ)) := rfl
    obtain ⟨-, hg, t, ht, hb⟩ := singleWith_ok (by simp) h1 hr
    obtain ⟨-, hg', t', ht', hb'⟩ := singleWith_ok (by simp) h1 ha
    have hz0 : ∀ {x : ℝ}, x ≤ 20 → hinge ((20 : ℝ) : EReal) x = 0 := fun hx => by
      rw [hinge_coe]
      exact max_eq_left (sub_nonpos.2 (Real.one_le_exp (sub_nonneg.2 hx)))
    have upper : ∀ (L : ℝ), L + disc ≤ 20 → hinge ((20 : ℝ) : EReal) ((⌈L / disc⌉ : ℝ) * disc) = 0 := fun L hL => hz0 (by
      have := mul_le_mul_of_nonneg_right (Int.ceil_lt_add_one (L / disc)).le hd.le
      rw [add_mul, div_mul_cancel₀ _ hd.ne'] at this
      linarith)
    have lower : ∀ (L : ℝ), L + disc ≤ 20 → hinge ((20 : ℝ) : EReal) (((⌊L / disc⌋ + 1 : ℤ) : ℝ) * disc) = 0 := fun L hL => hz0 (by
      have := mul_le_mul_of_nonneg_right (Int.floor_le (L / disc)) hd.le
      rw [div_mul_cancel₀ _ hd.ne'] at this
      push_cast
      linarith)
    rw [hmax]
    rw [three_kept] at hg hg' ht ht' hb hb'
    refine max_le ?_ ?_
    · set m : Obj := ⟨1, [1, 10, 100].zip [1 / 100, 98 / 100, 1 / 100], .remove, true, -50⟩ with hm
      obtain ⟨l, hl, hdelta⟩ := Obj.buckets_ok hd ht hb
      obtain ⟨-, t2, t3, t4⟩ := Obj.truncation_spec hg (Obj.tail_ok ht).1
      have hFlo := t4 hzz
      change t.lowerX ≤ ppf 1 (0.5 * Real.exp (-50)) at t2
      change t.upperX = -ppf 1 (0.5 * Real.exp (-50)) at t3
      change m.muUpperCdf (t.lowerX : EReal) ≤ 0.5 * Real.exp (-50) at hFlo
      have anti := (Obj.privacyLoss_strictAnti hg).antitone
      have hB := Obj.good_buckets hg
      have hLu : m.privacyLoss t.upperX ≤ 0 := by
        refine (anti (show (0 : ℝ) ≤ t.upperX by rw [t3]; linarith)).trans ?_
        rw [Obj.privacyLoss_eq hg]
        change Real.log (m.ratio (-0)) ≤ 0
        refine Real.log_nonpos (Obj.ratio_pos hg _).le ?_
        unfold Obj.ratio term
        have e1 : ∀ s : ℝ, Real.exp ((s * -0 - s ^ 2 / 2) / 1 ^ 2) ≤ 1 := fun s => Real.exp_le_one_iff.2 (by
          have := sq_nonneg s
          rw [neg_zero, mul_zero, one_pow, div_one]; linarith)
        have a1 := e1 1
        have a2 := e1 10
        have a3 := e1 100
        simp only [hm, List.zip_cons_cons, List.zip_nil_right, List.map_cons, List.map_nil, List.sum_cons, List.sum_nil]
        linarith
      have hF19 : m.muUpperCdf ((-19 : ℝ) : EReal) ≤ 3 / 100 := by
        rw [Obj.muUpperCdf_eq hg, Obj.below_coe]
        change (mixUpper 1 ([1, 10, 100].zip [1 / 100, 98 / 100, 1 / 100]) .remove).real (Set.Iic (-19)) ≤ _
        rw [hP]
        have b1 := g.le_one (-19 + 1)
        have b2 := g.le_one (-19 + 100)
        have b3 : gcdf 1 (-19 + 10) ≤ 1 / 100 := by
          have := gcdf_tail (a := 9) (by norm_num)
          rw [show (-19 + 10 : ℝ) = -9 by norm_num]
          refine this.trans ?_
          rw [Real.exp_neg, ← one_div]
          refine one_div_le_one_div_of_le (by norm_num) ?_
          have := Real.quadratic_le_exp_of_nonneg (x := 9 ^ 2 / 2) (by norm_num)
          norm_num at this ⊢
          linarith
        have fin : ∀ a b c : ℝ, a ≤ 1 → c ≤ 1 → b ≤ 1 / 100 → 1 / 100 * a + 98 / 100 * b + 1 / 100 * c ≤ 3 / 100 := by intros; linarith
        exact fin _ _ _ b1 b2 b3
      have hpos : m.pos = [(1, 1 / 100), (10, 98 / 100), (100, 1 / 100)] := by
        unfold Obj.pos
        rw [List.filter_eq_self.2]
        · rfl
        · intro c hc
          rcases three_mem hc with rfl | rfl | rfl <;> norm_num
      have hq : m.q = 1 := by rw [Obj.q_eq hg, hpos]; norm_num
      have hmin : m.minSens = 1 := by unfold Obj.minSens; rw [hpos]; norm_num
      have hmaxS : m.maxSens = 100 := by unfold Obj.maxSens; rw [hpos]; norm_num
      have hcand : ∀ l s, m.cand l s = -(s / 2 + l / s) := by
        intro l s
        change -(s / 2 + 1 ^ 2 * Real.log ((Real.exp l - (1 - m.q)) / m.q) / s) = _
        rw [hq, sub_self, sub_zero, div_one, Real.log_exp]; norm_num
      have hM : ∀ (k : ℤ) x', m.privacyLoss t.upperX < disc * k → 20 < disc * (k + 1) → m.inverseLoss (disc * k) 1e-6 = .ok x' →
          m.muUpperCdf x' ≤ 3 / 100 := by
        intro k x' _ hk hx'
        obtain ⟨hin, hf⟩ := Obj.inverseLoss_ok hg hx'
        obtain ⟨x, hx, hle, -⟩ := Obj.inverseLoss_spec hg (p := 1e-6) (by norm_num) hin hf
        rw [hx'] at hx
        cases hx
        refine (hB.mono (EReal.coe_le_coe_iff.2 ?_)).trans hF19
        have hc : max (m.cand (disc * k) m.minSens) (m.cand (disc * k) m.maxSens) ≤ -(39 / 2) := by
          rw [hmin, hmaxS, hcand, hcand]
          refine max_le ?_ ?_ <;> linarith
        have h2 := mul_le_mul_of_nonneg_right (Int.ceil_lt_add_one (max (m.cand (disc * k) m.minSens) (m.cand (disc * k) m.maxSens) / 1e-6)).le
          (show (0 : ℝ) ≤ 1e-6 by norm_num)
        rw [add_mul, div_mul_cancel₀ _ (by norm_num)] at h2
        norm_num at h2 hle ⊢
        linarith
      have main := Obj.addBuckets_le (cdf := m.muUpperCdf) (ε := 20) hd (by linarith) hM l fuel _ _
        [(⌈m.privacyLoss t.upperX / disc⌉, 1 - m.muUpperCdf (t.upperX : EReal))] hl (.inl (hFlo.trans hsmall))
      rw [hdelta 20]
      have hp' : m.pessimistic = true := rfl
      simp only [hp', if_true]
      have hexp : expect [(⌈m.privacyLoss t.upperX / disc⌉, 1 - m.muUpperCdf (t.upperX : EReal))]
          (fun k => hinge ((20 : ℝ) : EReal) (k * disc)) = 0 := by
        simp only [expect, List.map_cons, List.map_nil, List.sum_cons, List.sum_nil, upper _ (show m.privacyLoss t.upperX + disc ≤ 20 by linarith)]
        ring
      rw [hexp] at main
      have k1 := Obj.hinge_le_one' 20 (((⌊m.privacyLoss t.lowerX / disc⌋ + 1 : ℤ) : ℝ) * disc)
      have k0 := Obj.hinge_nonneg' 20 (((⌊m.privacyLoss t.lowerX / disc⌋ + 1 : ℤ) : ℝ) * disc)
      have k2 := hFlo.trans hsmall
      nlinarith
    · set m : Obj := ⟨1, [1, 10, 100].zip [1 / 100, 98 / 100, 1 / 100], .add, true, -50⟩ with hm
      obtain ⟨l, hl, hdelta⟩ := Obj.buckets_ok hd ht' hb'
      have ht1 := (Obj.tail_ok ht').1
      rw [Obj.truncation_add rfl] at ht1
      have e := Except.ok.inj (Option.some.inj ht1)
      have e1 : ppf 1 (0.5 * Real.exp (-50)) = t'.lowerX := congrArg Prod.fst e
      have e2 : -ppf 1 (0.5 * Real.exp (-50)) = t'.upperX := congrArg Prod.snd e
      have anti := (Obj.privacyLoss_strictAnti hg').antitone
      have hB := Obj.good_buckets hg'
      have hLl : m.privacyLoss t'.lowerX ≤ 19 := by
        rw [Obj.privacyLoss_eq hg', ← e1]
        change -Real.log (m.ratio _) ≤ 19
        set z := ppf 1 (0.5 * Real.exp (-50))
        have hge : 1 / 128 * Real.exp (z - 1 / 2) ≤ m.ratio z := by
          unfold Obj.ratio term
          simp only [hm, List.zip_cons_cons, List.zip_nil_right, List.map_cons, List.map_nil, List.sum_cons, List.sum_nil]
          have a1 : Real.exp ((1 * z - 1 ^ 2 / 2) / 1 ^ 2) = Real.exp (z - 1 / 2) := by congr 1; ring
          have a2 := Real.exp_pos ((10 * z - 10 ^ 2 / 2) / 1 ^ 2)
          have a3 := Real.exp_pos ((100 * z - 100 ^ 2 / 2) / 1 ^ 2)
          rw [a1]
          have a4 := Real.exp_pos (z - 1 / 2)
          linarith
        have := Real.log_le_log (mul_pos (by norm_num) (Real.exp_pos _)) hge
        rw [Real.log_mul (by norm_num) (Real.exp_pos _).ne', Real.log_exp, one_div, Real.log_inv,
          show (128 : ℝ) = 2 ^ 7 by norm_num, Real.log_pow] at this
        have l2 := Real.log_two_lt_d9
        norm_num at this l2 z1
        linarith
      have hLu : m.privacyLoss t'.upperX ≤ 19 := (anti (show t'.lowerX ≤ t'.upperX by rw [← e1, ← e2]; linarith)).trans hLl
      have hpr := hB.probP
      have main := Obj.addBuckets_le (cdf := m.muUpperCdf) (ε := 20) (M := 1) hd (show m.privacyLoss t'.upperX + disc ≤ 20 by linarith)
        (fun k x' _ _ _ => by rw [hB.cdf]; exact measureReal_le_one) l fuel _ _
        [(⌈m.privacyLoss t'.upperX / disc⌉, 1 - m.muUpperCdf (t'.upperX : EReal))] hl (.inr (lower _ (by linarith)))
      rw [hdelta 20]
      have hp' : m.pessimistic = true := rfl
      simp only [hp', if_true]
      have hexp : expect [(⌈m.privacyLoss t'.upperX / disc⌉, 1 - m.muUpperCdf (t'.upperX : EReal))]
          (fun k => hinge ((20 : ℝ) : EReal) (k * disc)) = 0 := by
        simp only [expect, List.map_cons, List.map_nil, List.sum_cons, List.sum_nil, upper _ (show m.privacyLoss t'.upperX + disc ≤ 20 by linarith)]
        ring
      rw [hexp, lower _ (show m.privacyLoss t'.lowerX + disc ≤ 20 by linarith), mul_zero, add_zero] at main
      have hFlo : m.muUpperCdf (t'.lowerX : EReal) ≤ 0.5 * Real.exp (-50) := (Obj.truncation_spec hg' (Obj.tail_ok ht').1).2.2.2 hzz
      linarith
  · intro δ hδ
    have k := hδ (Set.Iic (-7)) measurableSet_Iic
    change _ ≤ Real.exp 20 * gcdf 1 (-7) + δ at k
    rw [hP, show (-7 + 10 : ℝ) = 3 by norm_num] at k
    have b1 := g.nonneg (-7 + 1)
    have b2 : gcdf 1 3 ≤ gcdf 1 (-7 + 100) := g.mono (by norm_num)
    have b4 := gcdf_neg (σ := 1) one_pos 3
    have b5 := gcdf_tail (a := 3) (by norm_num)
    have b6 := gcdf_tail (a := 7) (by norm_num)
    have e1 : Real.exp (-(3 ^ 2 / 2)) ≤ 1 / 30 := by
      rw [Real.exp_neg, ← one_div]
      refine one_div_le_one_div_of_le (by norm_num) ?_
      rw [show (3 ^ 2 / 2 : ℝ) = ((4 : ℕ) : ℝ) * 1 + 1 / 2 by norm_num, Real.exp_add, Real.exp_nat_mul]
      have h1 := Real.exp_one_gt_d9
      have h2 : (2.7 : ℝ) ^ 4 ≤ Real.exp 1 ^ 4 := pow_le_pow_left₀ (by norm_num) (by norm_num at h1 ⊢; linarith) 4
      have h3 := Real.one_le_exp (show (0 : ℝ) ≤ 1 / 2 by norm_num)
      rw [show (2.7 : ℝ) ^ 4 = 531441 / 10000 by norm_num] at h2
      nlinarith
    have e2 : Real.exp 20 * gcdf 1 (-7) ≤ 1 / 30 := by
      refine le_trans (mul_le_mul_of_nonneg_left b6 (Real.exp_pos 20).le) ?_
      rw [← Real.exp_add]
      refine le_trans (Real.exp_le_exp.2 ?_) e1
      norm_num
    have fin : ∀ δ a b c d e : ℝ, 1 / 100 * a + 98 / 100 * b + 1 / 100 * c ≤ d + δ → 0 ≤ a → b ≤ c → e = 1 - b → e ≤ 1 / 30 →
        d ≤ 1 / 30 → 9 / 10 ≤ δ := by
      intros; linarith
    exact fin _ _ _ _ _ _ k b1 b2 b4 (b5.trans e1) e2

/-! ### Noise below the precision of the search -/

lemma tiny_mem {c : ℝ × ℝ} (hc : c ∈ ([1e-9] : List ℝ).zip [(1 : ℝ)]) : c = (1e-9, 1) := by
  simpa only [List.zip_cons_cons, List.zip_nil_right, List.mem_cons, List.not_mem_nil, or_false] using hc

lemma tiny_kept : kept [1e-9] [1] = [1e-9].zip [1] := by
  unfold kept
  rw [List.filter_eq_self]
  intro c hc
  rw [tiny_mem hc]; norm_num

lemma tiny_loss {adj : Adj} {pess : Bool} (h : (⟨1e-9, [1e-9].zip [1], adj, pess, -50⟩ : Obj).Good) (x : ℝ) :
    (⟨1e-9, [1e-9].zip [1], adj, pess, -50⟩ : Obj).privacyLoss (1e-9 * x) = match adj with | .add => 1 / 2 - x | .remove => -x - 1 / 2 := by
  rw [Obj.privacyLoss_eq h]
  cases adj
  · change -Real.log (([1e-9].zip [1]).map fun c => c.2 * term (1e-9 ^ 2) c.1 (1e-9 * x)).sum = 1 / 2 - x
    simp only [List.zip_cons_cons, List.zip_nil_right, List.map_cons, List.map_nil, List.sum_cons, List.sum_nil, term, one_mul, add_zero,
      Real.log_exp]
    norm_num
    ring
  · change Real.log (([1e-9].zip [1]).map fun c => c.2 * term (1e-9 ^ 2) c.1 (-(1e-9 * x))).sum = -x - 1 / 2
    simp only [List.zip_cons_cons, List.zip_nil_right, List.map_cons, List.map_nil, List.sum_cons, List.sum_nil, term, one_mul, add_zero,
      Real.log_exp]
    norm_num
    ring

/-- The optimistic estimate can be above a valid delta: one sensitivity `1e-9` and noise `1e-9`, default truncation, any discretization
of at most 1. The estimate for epsilon 3 is at least 1/3 although 1/8 is valid in both directions. -/
theorem C75_optimistic_violated {ppf : ℝ → ℝ → ℝ} (hppf : NormalQuantile ppf) {disc : ℝ} (hd : 0 < disc) (hd1 : disc ≤ 1) (dots : Bool) :
    (∃ N, ∀ fuel ≥ N, ∃ p, fromMixtureWith fuel (ppf 1e-9) 1e-9 [1e-9] [1] false disc (-50) dots = some (.ok p) ∧
      1 / 3 ≤ p.getDeltaForEpsilon (3 : ℝ)) ∧
    ∀ adj, Indist (mixUpper 1e-9 ([1e-9].zip [1]) adj) (mixLower 1e-9 ([1e-9].zip [1]) adj) 3 (1 / 8) := by
  have h1 : ((([1e-9] : List ℝ).zip [(1 : ℝ)]).map Prod.snd).sum = 1 := by norm_num
  have hσ : (0 : ℝ) < 1e-9 := by norm_num
  have hzz := hppf 1e-9 (0.5 * Real.exp (-50)) hσ (by positivity) (by
    have := Real.exp_lt_one_iff.2 (show (-50 : ℝ) < 0 by norm_num)
    linarith)
  obtain ⟨w, hw⟩ : ∃ w, ppf 1e-9 (0.5 * Real.exp (-50)) = 1e-9 * w := ⟨ppf 1e-9 (0.5 * Real.exp (-50)) / 1e-9, by field_simp⟩
  have hzw : gcdf 1 w = 0.5 * Real.exp (-50) := by
    rw [← gcdf_scale hσ, ← hw]; exact hzz
  obtain ⟨z1, z2⟩ := quantile_bounds hzw
  have hsmall : 0.5 * Real.exp (-50) ≤ 1 / 100 := by
    have h2 : Real.exp (-50) ≤ 1 / 51 := by
      rw [Real.exp_neg, ← one_div]
      refine one_div_le_one_div_of_le (by norm_num) ?_
      have := Real.add_one_le_exp 50
      linarith
    linarith
  have hok : MkOk 1e-9 [1e-9] [1] (-50) := ⟨hσ, by norm_num, rfl, fun c hc _ => by rw [tiny_mem hc]; norm_num,
    ⟨(1e-9, 1), by simp, by norm_num, by norm_num⟩, .inl h1, fun c hc => by rw [tiny_mem hc]; norm_num⟩
  have good : ∀ adj pess, (⟨1e-9, [1e-9].zip [1], adj, pess, -50⟩ : Obj).Good := fun adj pess => by
    rw [← tiny_kept]; exact ⟨hok.σ0, hok.dist h1⟩
  refine ⟨?_, ?_⟩
  · obtain ⟨N, hN⟩ := C75_buckets_exists (σ := 1e-9) (lb := -50) (sens := [1e-9]) (probs := [1]) hppf hσ
      (by norm_num) hd rfl (fun c hc => by rw [tiny_mem hc]; norm_num) ⟨(1e-9, 1), by simp, by norm_num, by norm_num⟩
      h1 (fun k => no_zero_near (fun c hc => by rw [tiny_mem hc]; norm_num) _ _) false dots (by simp)
    refine ⟨N, fun fuel hf => ?_⟩
    obtain ⟨p, hp⟩ := hN fuel hf
    refine ⟨p, hp, ?_⟩
    obtain ⟨r, a, hr, ha, rfl⟩ := fromMixtureWith_ok hp
    have hmax : (Pld.mk' r (some a)).getDeltaForEpsilon (3 : ℝ) = max (r.getDeltaForEpsilon (3 : ℝ)) (a.getDeltaForEpsilon (3 : ℝ)) := rfl
    obtain ⟨-, hg, t, ht, hb⟩ := singleWith_ok (by simp) h1 ha
    have hone := one_sens hg (s := 1e-9) fun c hc _ _ => by rw [tiny_mem hc]
    rw [tiny_kept] at hg ht hb hone
    rw [hmax]
    refine le_max_of_le_right ?_
    have hloss := tiny_loss hg
    simp only [] at hloss
    set m : Obj := ⟨1e-9, [1e-9].zip [1], .add, false, -50⟩ with hm
    obtain ⟨l, hl, hdelta⟩ := Obj.buckets_ok hd ht hb
    have ht1 := (Obj.tail_ok ht).1
    rw [Obj.truncation_add rfl] at ht1
    have e := Except.ok.inj (Option.some.inj ht1)
    have e1 : t.lowerX = 1e-9 * w := by rw [← hw]; exact (congrArg Prod.fst e).symm
    have e2 : t.upperX = 1e-9 * -w := by rw [mul_neg, ← hw]; exact (congrArg Prod.snd e).symm
    have strict := Obj.privacyLoss_strictAnti hg
    have hB := Obj.good_buckets hg
    have hLl : m.privacyLoss t.lowerX = 1 / 2 - w := by rw [e1, hloss]
    have hLu : m.privacyLoss t.upperX = 1 / 2 + w := by rw [e2, hloss]; ring
    have hrd := mul_le_mul_of_nonneg_right (Int.floor_le (m.privacyLoss t.lowerX / disc)) hd.le
    have hrd' := mul_lt_mul_of_pos_right (Int.lt_floor_add_one (m.privacyLoss t.lowerX / disc)) hd
    rw [div_mul_cancel₀ _ hd.ne'] at hrd hrd'
    set rd := ⌊m.privacyLoss t.lowerX / disc⌋
    rw [hdelta 3]
    have hp' : m.pessimistic = false := rfl
    simp only [hp', Bool.false_eq_true, if_false, zero_add]
    rcases Obj.loop_cases hl with ⟨hc, -⟩ | ⟨-, x', l', fuel', rfl, hrec, hcase⟩
    · rw [e1, e2, EReal.coe_le_coe_iff] at hc
      norm_num at hc
      linarith
    · rcases hcase with ⟨hc, -⟩ | ⟨hk, hinv⟩
      · rw [hLu] at hc; linarith
      · have hx' : x' = ((0 : ℝ) : EReal) := by
          obtain ⟨hin, hf⟩ := Obj.inverseLoss_ok hg hinv
          obtain ⟨z, hz⟩ := Obj.exists_inverse hg hin
          rw [Obj.inverseLoss_single hg (by norm_num) hone hf hz] at hinv
          have a1 : z < 0 := by
            refine strict.lt_iff_gt.1 ?_
            rw [hz, show (0 : ℝ) = 1e-9 * 0 by norm_num, hloss]
            linarith
          have a2 : t.lowerX ≤ z := by
            refine strict.le_iff_ge.1 ?_
            rw [hz]; linarith
          have a3 : ⌈z / 1e-6⌉ = 0 := by
            rw [Int.ceil_eq_iff]
            push_cast
            rw [e1] at a2
            norm_num at a2 z1 ⊢
            constructor <;> linarith
          rw [a3] at hinv
          cases hinv
          norm_num
        have hmon : ∀ (k k' : ℤ) x x', k' ≤ k → m.privacyLoss t.upperX < disc * k → m.privacyLoss t.upperX < disc * k' →
            m.inverseLoss (disc * k) 1e-6 = .ok x → m.inverseLoss (disc * k') 1e-6 = .ok x' → x ≤ x' := fun k k' x x' hk _ _ hx hx' =>
          (Obj.inverse_single_lower hg hone hx).2.2 _ x' (mul_le_mul_of_nonneg_left (by exact_mod_cast hk) hd.le) hx'
        have main := Obj.addBuckets_ge (cdf := m.muUpperCdf) (ε := 3) (fun _ _ h => hB.mono h) hmon l' fuel' x' (rd - 1)
          (PyDict.add [(rd, m.muUpperCdf (t.lowerX : EReal))] (roundFn false ((rd : ℝ) + 0.5))
            (m.muUpperCdf x' - m.muUpperCdf (t.lowerX : EReal))) hrec
          (fun k' y hk' hLk hy => hmon rd k' x' y (by omega) hk hLk hinv hy)
        rw [Mech.addBuckets]
        refine le_trans ?_ main
        rw [PyDict.expect_addK, Mech.roundFn_half, if_neg (by simp)]
        have c0 : m.muUpperCdf x' = 1 / 2 := by
          rw [hx', Obj.muUpperCdf_eq hg, Obj.below_coe]
          change gcdf 1e-9 0 = 1 / 2
          have := gcdf_neg hσ 0
          rw [neg_zero] at this
          linarith
        have c1 : m.muUpperCdf (t.lowerX : EReal) = 0.5 * Real.exp (-50) := by
          rw [e1, Obj.muUpperCdf_eq hg, Obj.below_coe]
          change gcdf 1e-9 (1e-9 * w) = _
          rw [gcdf_scale hσ, hzw]
        have c2 : 7 / 10 ≤ hinge ((3 : ℝ) : EReal) ((rd : ℝ) * disc) := by
          rw [hinge_coe]
          refine le_max_of_le_right ?_
          have k1 : Real.exp (3 - (rd : ℝ) * disc) ≤ Real.exp (-(3 / 2)) := Real.exp_le_exp.2 (by linarith)
          have k2 : Real.exp (-(3 / 2)) ≤ 3 / 10 := by
            rw [Real.exp_neg, ← one_div, div_le_iff₀ (Real.exp_pos _)]
            have := Real.quadratic_le_exp_of_nonneg (x := 3 / 2) (by norm_num)
            norm_num at this ⊢
            linarith
          linarith
        have c3 : 0 ≤ expect [(rd, m.muUpperCdf (t.lowerX : EReal))] (fun k => hinge ((3 : ℝ) : EReal) ((k : ℝ) * disc)) := by
          simp only [expect, List.map_cons, List.map_nil, List.sum_cons, List.sum_nil, add_zero]
          rw [c1]
          have := Real.exp_pos (-50)
          exact mul_nonneg (by positivity) (by linarith)
        rw [c0, c1]
        rw [c1] at c3
        nlinarith
  · have tail : gcdf 1e-9 (1e-9 * (-(5 / 2))) ≤ 1 / 8 := by
      rw [gcdf_scale hσ]
      refine (gcdf_tail (a := 5 / 2) (by norm_num)).trans ?_
      rw [Real.exp_neg, ← one_div]
      refine one_div_le_one_div_of_le (by norm_num) ?_
      have := Real.quadratic_le_exp_of_nonneg (x := (5 / 2) ^ 2 / 2) (by norm_num)
      norm_num at this ⊢
      linarith
    intro adj
    have hg := good adj true
    have hloss := tiny_loss hg
    cases adj
    · have hP : (mixUpper 1e-9 ([1e-9].zip [1]) .add).real (Set.Iic (1e-9 * (-(5 / 2)))) ≤ 1 / 8 := tail
      have := (Obj.isHs_cutoff hg (1e-9 * (-(5 / 2)))).1
      rw [hloss, show (1 / 2 - -(5 / 2) : ℝ) = 3 by norm_num] at this
      refine Indist.mono this ?_
      have := mul_nonneg (Real.exp_pos 3).le
        (measureReal_nonneg (μ := mixLower 1e-9 ([1e-9].zip [1]) .add) (s := Set.Iic (1e-9 * (-(5 / 2)))))
      exact (sub_le_self _ this).trans hP
    · have hP : (mixUpper 1e-9 ([1e-9].zip [1]) .remove).real (Set.Iic (1e-9 * (-(7 / 2)))) ≤ 1 / 8 := by
        rw [mixUpper, gaussMixture_real (neg_probs fun c hc => by rw [tiny_mem hc]; norm_num)]
        simp only [List.zip_cons_cons, List.zip_nil_right, List.map_cons, List.map_nil, List.sum_cons, List.sum_nil, gcdf_shift,
          sub_neg_eq_add, one_mul, add_zero]
        rw [show (1e-9 * (-(7 / 2)) + 1e-9 : ℝ) = 1e-9 * (-(5 / 2)) by norm_num]
        exact tail
      have := (Obj.isHs_cutoff hg (1e-9 * (-(7 / 2)))).1
      rw [hloss, show (- -(7 / 2) - 1 / 2 : ℝ) = 3 by norm_num] at this
      refine Indist.mono this ?_
      have := mul_nonneg (Real.exp_pos 3).le
        (measureReal_nonneg (μ := mixLower 1e-9 ([1e-9].zip [1]) .remove) (s := Set.Iic (1e-9 * (-(7 / 2)))))
      exact (sub_le_self _ this).trans hP

/-! ### Losses near the limit -/

lemma four_mem {c : ℝ × ℝ} (hc : c ∈ ([0, 4] : List ℝ).zip [(1 / 2 : ℝ), 1 / 2]) : c = (0, 1 / 2) ∨ c = (4, 1 / 2) := by
  simpa only [List.zip_cons_cons, List.zip_nil_right, List.mem_cons, List.not_mem_nil, or_false] using hc

lemma four_kept : kept [0, 4] [1 / 2, 1 / 2] = [0, 4].zip [1 / 2, 1 / 2] := by
  unfold kept
  rw [List.filter_eq_self]
  intro c hc
  rcases four_mem hc with rfl | rfl <;> norm_num

/-- Privacy buckets raise `ValueError` if a multiple of the discretization is within the tolerance around the limit of the privacy loss,
although the arguments are admissible and the default algorithm returns a distribution for them: sensitivity 0 or 4 with probability one
half each, discretization about `1e-4`. -/
theorem C75_buckets_raises {ppf : ℝ → ℝ → ℝ} (hppf : NormalQuantile ppf) (pess dots : Bool) (hb : ¬ (dots = true ∧ pess = true)) :
    (∃ N, ∀ fuel ≥ N, fromMixtureWith fuel (ppf 1) 1 [0, 4] [1 / 2, 1 / 2] pess ((Real.log 2 - 5e-6) / 6931) (-50) dots = some (.error .valueError)) ∧
    ∃ N, ∀ fuel ≥ N, ∃ p, fromMixtureWith fuel (ppf 1) 1 [0, 4] [1 / 2, 1 / 2] true ((Real.log 2 - 5e-6) / 6931) (-50) true = some (.ok p) := by
  have h1 : ((([0, 4] : List ℝ).zip [(1 / 2 : ℝ), 1 / 2]).map Prod.snd).sum = 1 := by norm_num
  have l1 := Real.log_two_gt_d9
  have l2 := Real.log_two_lt_d9
  have hlog : Real.log (1 / 2) = -Real.log 2 := by rw [one_div, Real.log_inv]
  have hzero : zeroProb ([0, 4].zip [1 / 2, 1 / 2]) = 1 / 2 := by unfold zeroProb; simp
  set disc := (Real.log 2 - 5e-6) / 6931 with hdisc
  have hdm : disc * 6931 = Real.log 2 - 5e-6 := div_mul_cancel₀ _ (by norm_num)
  have hd' : 9e-5 < disc := by norm_num at l1 hdm ⊢; linarith
  have hd : 0 < disc := lt_trans (by norm_num) hd'
  have hok : MkOk 1 [0, 4] [1 / 2, 1 / 2] (-50) := ⟨one_pos, by norm_num, rfl, fun c hc _ => by rcases four_mem hc with rfl | rfl <;> norm_num,
    ⟨(4, 1 / 2), by simp, by norm_num, by norm_num⟩, .inl h1, fun c hc => by rcases four_mem hc with rfl | rfl <;> norm_num⟩
  refine ⟨?_, ?_⟩
  · have hzz := hppf 1 (0.5 * Real.exp (-50)) one_pos (by positivity) (by
      have := Real.exp_lt_one_iff.2 (show (-50 : ℝ) < 0 by norm_num)
      linarith)
    obtain ⟨z1, z2⟩ := quantile_bounds (z := ppf 1 (0.5 * Real.exp (-50))) hzz
    set z := ppf 1 (0.5 * Real.exp (-50)) with hz
    have hg : (⟨1, kept [0, 4] [1 / 2, 1 / 2], .remove, pess, -50⟩ : Obj).Good := ⟨hok.σ0, hok.dist h1⟩
    have hone := one_sens hg (s := 4) fun c hc _ h0 => by
      rcases four_mem hc with rfl | rfl
      · exact absurd h0 (lt_irrefl _)
      · rfl
    have hnear := fun l => (near_kept (sens := [0, 4]) (probs := [1 / 2, 1 / 2]) (adj := .remove) l).symm.trans (Obj.near_iff hg l)
    have hsing := fun fuel t r => singleWith_of (fuel := fuel) (ppf := ppf 1) (disc := disc) (adj := .remove) (t := t) (r := r) hok hb
    rw [four_kept] at hg hone
    simp only [four_kept] at hnear hsing
    set m : Obj := ⟨1, [0, 4].zip [1 / 2, 1 / 2], .remove, pess, -50⟩ with hm
    have strict := Obj.privacyLoss_strictAnti hg
    have hloss : ∀ x, m.privacyLoss x = Real.log (1 / 2 + 1 / 2 * Real.exp (-4 * x - 8)) := by
      intro x
      rw [Obj.privacyLoss_eq hg]
      change Real.log (m.ratio (-x)) = _
      unfold Obj.ratio term
      simp only [hm, List.zip_cons_cons, List.zip_nil_right, List.map_cons, List.map_nil, List.sum_cons, List.sum_nil]
      congr 1
      rw [show (0 * -x - 0 ^ 2 / 2) / 1 ^ 2 = (0 : ℝ) by ring, show (4 * -x - 4 ^ 2 / 2) / 1 ^ 2 = -4 * x - 8 by ring, Real.exp_zero]
      ring
    have hloss2 : m.privacyLoss (-2) = 0 := by
      rw [hloss, show (-4 * -2 - 8 : ℝ) = 0 by norm_num, Real.exp_zero]; norm_num
    have hmax : m.maxSens = 4 := by
      obtain ⟨y, y1, y2, y3, y4⟩ := maxSens_kept (σ := 1) (lb := -50) (sens := [0, 4]) (probs := [1 / 2, 1 / 2]) (pess := pess) (adj := .remove)
        (by rw [four_kept]; exact hg)
      rw [four_kept] at y4
      rw [← y4]
      rcases four_mem y1 with rfl | rfl
      · exact absurd y3 (lt_irrefl _)
      · rfl
    have hfar : ∀ x : ℝ, 4 ≤ x → m.privacyLoss x ≤ -Real.log 2 + 1e-6 := by
      intro x hx
      rw [hloss]
      have k1 : Real.exp (-4 * x - 8) ≤ 1e-6 := by
        have k2 : Real.exp (-4 * x - 8) ≤ Real.exp (-((20 : ℕ) * 1)) := Real.exp_le_exp.2 (by norm_num; linarith)
        refine k2.trans ?_
        rw [Real.exp_neg, Real.exp_nat_mul]
        have k3 : (2 : ℝ) ^ 20 ≤ Real.exp 1 ^ 20 := pow_le_pow_left₀ (by norm_num) (by
          have := Real.add_one_le_exp 1
          linarith) 20
        refine (inv_anti₀ (by norm_num) k3).trans (by norm_num)
      have k4 : Real.log (1 / 2 + 1 / 2 * Real.exp (-4 * x - 8)) = -Real.log 2 + Real.log (1 + Real.exp (-4 * x - 8)) := by
        rw [← hlog, ← Real.log_mul (by norm_num) (by positivity)]
        congr 1; ring
      have k5 := Real.log_le_sub_one_of_pos (show 0 < 1 + Real.exp (-4 * x - 8) by positivity)
      rw [k4]
      linarith
    have hq : 1 - m.q = 1 / 2 := by rw [← Obj.zeroProb_eq hg]; exact hzero
    have hin : ∀ l, -Real.log 2 < l → m.InRange l := by
      intro l hl
      unfold Obj.InRange
      rw [hq]
      change 1 / 2 < Real.exp l
      rw [← Real.exp_log (show (0 : ℝ) < 1 / 2 by norm_num), hlog]
      exact Real.exp_lt_exp.2 hl
    obtain ⟨N, hN⟩ := Obj.truncation_terminates hg (ppf 1) hzz
    set n := (⌊m.privacyLoss (z - 4) / disc⌋ + 6932).toNat with hn
    refine ⟨max N n, fun fuel hf => ?_⟩
    obtain ⟨b, hbb⟩ := hN fuel (le_trans (le_max_left _ _) hf)
    obtain ⟨tr, htr⟩ : ∃ tr, m.truncation fuel (ppf 1) = some (.ok tr) := by
      unfold Obj.bounds at hbb
      cases hr : m.truncation fuel (ppf 1) with
      | none => rw [hr] at hbb; simp at hbb
      | some r =>
        cases r with
        | error e => rw [hr] at hbb; simp only [Option.map_some, Option.some.injEq] at hbb; cases hbb
        | ok t => exact ⟨t, rfl⟩
    obtain ⟨t1, t2, t3, -⟩ := Obj.truncation_spec hg htr
    rw [hmax] at t1
    change z - 4 ≤ tr.1 at t1
    change tr.1 ≤ z at t2
    change tr.2 = -z at t3
    obtain ⟨t, ht, e1, e2⟩ : ∃ t, m.tail fuel (ppf 1) = some (.ok t) ∧ t.lowerX = tr.1 ∧ t.upperX = tr.2 := by
      unfold Obj.tail; rw [htr]; exact ⟨_, rfl, rfl, rfl⟩
    have hrd0 : 0 ≤ ⌊m.privacyLoss t.lowerX / disc⌋ := by
      refine Int.floor_nonneg.2 (div_nonneg ?_ hd.le)
      rw [← hloss2]
      exact strict.antitone (by rw [e1]; linarith)
    have hrd1 : ⌊m.privacyLoss t.lowerX / disc⌋ ≤ ⌊m.privacyLoss (z - 4) / disc⌋ :=
      Int.floor_le_floor (div_le_div_of_nonneg_right (strict.antitone (by rw [e1]; exact t1)) hd.le)
    have hloop := Obj.loop_raises (inv := fun l => m.inverseLoss l 1e-6) (disc := disc) (Lu := m.privacyLoss t.upperX) (u := (t.upperX : EReal))
      (e := .valueError) (k0 := -6931) (by
        have := hfar t.upperX (by rw [e2, t3]; linarith)
        push_cast
        norm_num at hdm this ⊢
        linarith) (by
        refine Obj.inverseLoss_infinite hg (hin _ ?_) ?_
        · push_cast
          norm_num at hdm ⊢
          linarith
        · rw [← hnear]
          refine ⟨by rw [hzero]; norm_num, ?_⟩
          unfold mixLimit
          rw [hzero, hlog]
          push_cast
          rw [show disc * -6931 - -Real.log 2 = 5e-6 by linarith, abs_neg, abs_of_pos (show (0 : ℝ) < Real.log 2 by linarith),
            abs_of_pos (show (0 : ℝ) < 5e-6 by norm_num)]
          norm_num at l1 ⊢
          linarith) hd (fun k hk => by
        have hk1 : (-6930 : ℝ) ≤ k := by
          have : (-6930 : ℤ) ≤ k := by omega
          exact_mod_cast this
        have hk2 : -Real.log 2 + 9e-5 < disc * k := by
          have := mul_le_mul_of_nonneg_left hk1 hd.le
          norm_num at hdm hd' ⊢
          linarith
        have hin' := hin (disc * k) (by linarith)
        have hf : m.Finite (disc * k) := by
          by_contra hc
          rw [← hnear] at hc
          have := (abs_le.1 hc.2).2
          unfold mixLimit at this
          rw [hzero, hlog, abs_neg, abs_of_pos (show (0 : ℝ) < Real.log 2 by linarith)] at this
          norm_num at this l2 hk2
          linarith
        obtain ⟨y, hy⟩ := Obj.exists_inverse hg hin'
        have hy4 : y < 4 := by
          by_contra hc
          have := hfar y (not_lt.1 hc)
          rw [hy] at this
          norm_num at this hk2
          linarith
        refine ⟨_, Obj.inverseLoss_single hg (by norm_num) hone hf hy, EReal.coe_lt_coe_iff.2 ?_⟩
        rw [e2, t3]
        have h2 := mul_le_mul_of_nonneg_right (Int.ceil_lt_add_one (y / 1e-6)).le (show (0 : ℝ) ≤ 1e-6 by norm_num)
        rw [add_mul, div_mul_cancel₀ _ (by norm_num)] at h2
        norm_num at h2 ⊢
        linarith) (⌊m.privacyLoss t.lowerX / disc⌋ + 6931).toNat fuel (t.lowerX : EReal) ⌊m.privacyLoss t.lowerX / disc⌋
      (by have := le_trans (le_max_right _ _) hf; omega) (EReal.coe_lt_coe_iff.2 (by rw [e1, e2, t3]; linarith)) (by omega)
    unfold fromMixtureWith
    rw [hsing fuel t _ ht (Obj.buckets_of_error ht hloop)]
  · simp only [C75_default]
    refine C70_pld_exists hppf one_pos (by norm_num) hd rfl (fun c hc => by rcases four_mem hc with rfl | rfl <;> norm_num)
      ⟨(4, 1 / 2), by simp, by norm_num, by norm_num⟩ h1 ?_
    refine .inr ⟨-6930, ?_, ?_⟩
    · rw [hzero, hlog, abs_neg, abs_of_pos (show (0 : ℝ) < Real.log 2 by linarith)]
      push_cast
      norm_num at hdm hd' l2 ⊢
      linarith
    · unfold mixLogRatio
      simp only [List.zip_cons_cons, List.zip_nil_right, List.map_cons, List.map_nil, List.sum_cons, List.sum_nil]
      rw [show ((0 : ℝ) * 0 - 0 ^ 2 / 2) / 1 ^ 2 = 0 by ring, show ((4 : ℝ) * 0 - 4 ^ 2 / 2) / 1 ^ 2 = -((8 : ℕ) * 1) by norm_num, Real.exp_zero]
      have k4 : Real.log (1 / 2 * 1 + (1 / 2 * Real.exp (-((8 : ℕ) * 1)) + 0)) = -Real.log 2 + Real.log (1 + Real.exp (-((8 : ℕ) * 1))) := by
        rw [← hlog, ← Real.log_mul (by norm_num) (by positivity)]
        congr 1; ring
      rw [k4]
      have k1 : 3e-4 ≤ Real.exp (-((8 : ℕ) * 1)) := by
        rw [Real.exp_neg, Real.exp_nat_mul]
        have k2 := Real.exp_one_lt_d9
        have k3 : Real.exp 1 ^ 8 ≤ 2.7183 ^ 8 := pow_le_pow_left₀ (Real.exp_pos 1).le (by norm_num at k2 ⊢; linarith) 8
        refine le_trans ?_ (inv_anti₀ (pow_pos (Real.exp_pos 1) 8) k3)
        norm_num
      have k5 : 1.5e-4 ≤ Real.log (1 + Real.exp (-((8 : ℕ) * 1))) := by
        rw [Real.le_log_iff_exp_le (by positivity)]
        have k6 : Real.exp 1.5e-4 ≤ (1 - 1.5e-4)⁻¹ := by
          have := Real.one_sub_le_exp_neg 1.5e-4
          rw [Real.exp_neg] at this
          exact (le_inv_comm₀ (Real.exp_pos _) (by norm_num)).2 this
        refine k6.trans (le_trans ?_ (add_le_add_right k1 1))
        norm_num
      push_cast at k5 ⊢
      have hdl : disc < 1.01e-4 := by norm_num at l2 hdm ⊢; linarith
      norm_num at hdm hdl k5 ⊢
      linarith

/-! ### Non-vacuity -/

/-- Sensitivity 1 or 2: the tolerance is `2e-6` in epsilon. -/
example (ppf : ℝ → ℝ → ℝ) (hppf : NormalQuantile ppf) : ∃ fuel p, fromMixtureWith fuel (ppf 1) 1 [1, 2] [1 / 2, 1 / 2] true 1e-4 (-50) false = some (.ok p) ∧
    ∀ adj, Indist (mixUpper 1 ([1, 2].zip [1 / 2, 1 / 2]) adj) (mixLower 1 ([1, 2].zip [1 / 2, 1 / 2]) adj) (1 + 2 * 1e-6 / 1 ^ 2)
      (p.getDeltaForEpsilon (1 : ℝ)) := by
  have hmem : ∀ c ∈ ([1, 2] : List ℝ).zip [(1 / 2 : ℝ), 1 / 2], c = (1, 1 / 2) ∨ c = (2, 1 / 2) := fun c hc => by
    simpa only [List.zip_cons_cons, List.zip_nil_right, List.mem_cons, List.not_mem_nil, or_false] using hc
  have h1 : ((([1, 2] : List ℝ).zip [(1 / 2 : ℝ), 1 / 2]).map Prod.snd).sum = 1 := by norm_num
  obtain ⟨N, hN⟩ := C75_buckets_exists (σ := 1) (lb := -50) (disc := 1e-4) (sens := [1, 2]) (probs := [1 / 2, 1 / 2]) hppf one_pos (by norm_num)
    (by norm_num) rfl (fun c hc => by rcases hmem c hc with rfl | rfl <;> norm_num) ⟨(1, 1 / 2), by simp, by norm_num, by norm_num⟩ h1
    (fun k => no_zero_near (fun c hc => by rcases hmem c hc with rfl | rfl <;> norm_num) _ _) true false (by simp)
  obtain ⟨p, hp⟩ := hN N le_rfl
  exact ⟨N, p, hp, (C75_buckets_partial (by norm_num) h1 (s := 1) (S := 2) (by norm_num)
    (fun c hc _ _ => by rcases hmem c hc with rfl | rfl <;> simp) hp 1).1⟩

/-- Sensitivity 0 or 1 and discretization `1e-4`: no multiple is near the limit. -/
lemma half_not_near_grid (k : ℤ) : ¬ NearLimit ([0, 1].zip [1 / 2, 1 / 2]) .remove (1e-4 * k) := by
  unfold NearLimit mixLimit
  rw [half_zero, show Real.log (1 / 2) = -Real.log 2 by rw [one_div, Real.log_inv]]
  have l1 := Real.log_two_gt_d9
  have l2 := Real.log_two_lt_d9
  rintro ⟨-, h⟩
  rw [abs_neg, abs_of_pos (show (0 : ℝ) < Real.log 2 by linarith)] at h
  obtain ⟨a, b⟩ := abs_le.1 h
  rcases le_or_gt k (-6932) with hk | hk
  · have : (k : ℝ) ≤ -6932 := by exact_mod_cast hk
    norm_num at a l1 l2
    linarith
  · have : (-6931 : ℝ) ≤ k := by exact_mod_cast (show (-6931 : ℤ) ≤ k by omega)
    norm_num at b l1 l2
    linarith

lemma half_mem {c : ℝ × ℝ} (hc : c ∈ ([0, 1] : List ℝ).zip [(1 / 2 : ℝ), 1 / 2]) : c = (0, 1 / 2) ∨ c = (1, 1 / 2) := by
  simpa only [List.zip_cons_cons, List.zip_nil_right, List.mem_cons, List.not_mem_nil, or_false] using hc

/-- Both estimates for sensitivity 0 or 1: the pessimistic one bounds the exact delta from above, the optimistic one from below. -/
example (ppf : ℝ → ℝ → ℝ) (hppf : NormalQuantile ppf) : ∃ fuel p o,
    fromMixtureWith fuel (ppf 1) 1 [0, 1] [1 / 2, 1 / 2] true 1e-4 (-50) false = some (.ok p) ∧
    fromMixtureWith fuel (ppf 1) 1 [0, 1] [1 / 2, 1 / 2] false 1e-4 (-50) true = some (.ok o) ∧
    (∀ adj, Indist (mixUpper 1 ([0, 1].zip [1 / 2, 1 / 2]) adj) (mixLower 1 ([0, 1].zip [1 / 2, 1 / 2]) adj) 1
      (p.getDeltaForEpsilon (1 : ℝ))) ∧
    ∀ δ, (∀ adj, Indist (mixUpper 1 ([0, 1].zip [1 / 2, 1 / 2]) adj) (mixLower 1 ([0, 1].zip [1 / 2, 1 / 2]) adj) (1 - 1 * 1e-6 / 1 ^ 2) δ) →
      o.getDeltaForEpsilon (1 : ℝ) ≤ δ := by
  have h1 : ((([0, 1] : List ℝ).zip [(1 / 2 : ℝ), 1 / 2]).map Prod.snd).sum = 1 := by norm_num
  have ex := fun pess dots hb => C75_buckets_exists (σ := 1) (lb := -50) (disc := 1e-4) (sens := [0, 1]) (probs := [1 / 2, 1 / 2]) hppf one_pos
    (by norm_num) (by norm_num) rfl (fun c hc => by rcases half_mem hc with rfl | rfl <;> norm_num) ⟨(1, 1 / 2), by simp, by norm_num, by norm_num⟩ h1
    half_not_near_grid pess dots hb
  have hs : ∀ c ∈ ([0, 1] : List ℝ).zip [(1 / 2 : ℝ), 1 / 2], c.2 ≠ 0 → 0 < c.1 → c.1 = 1 := fun c hc _ h0 => by
    rcases half_mem hc with rfl | rfl
    · exact absurd h0 (lt_irrefl _)
    · rfl
  obtain ⟨N, hN⟩ := ex true false (by simp)
  obtain ⟨N', hN'⟩ := ex false true (by simp)
  obtain ⟨p, hp⟩ := hN (max N N') (le_max_left _ _)
  obtain ⟨o, ho⟩ := hN' (max N N') (le_max_right _ _)
  exact ⟨max N N', p, o, hp, ho, (C75_buckets_single (by norm_num) h1 hs hp 1).1, fun δ hδ =>
    C75_optimistic_partial (by norm_num) h1 hs ho 1 hδ⟩

/-- A vector query: with probability one half each nothing or the vector `(1)` is added. -/
example (ppf : ℝ → ℝ → ℝ) {fuel : ℕ} {p : Pld} (hp : fromMixtureWith fuel (ppf 1) 1 [0, 1] [1 / 2, 1 / 2] true 1e-4 (-50) false = some (.ok p)) :
    Indist (vecMixture 1 0 [(0, 1 / 2), (EuclideanSpace.single (0 : Fin 1) 1, 1 / 2)]) (gaussianVec 0 1) 1 (p.getDeltaForEpsilon (1 : ℝ)) :=
  ((C75_buckets_single (s := 1) (by norm_num) (by norm_num) (fun c hc _ h0 => by
    rcases half_mem hc with rfl | rfl
    · exact absurd h0 (lt_irrefl _)
    · rfl) hp 1).2 _ _ (.cons ⟨by simp, rfl⟩ (.cons ⟨by simp, rfl⟩ .nil))).1

/-- Many sensitivities, ADD. -/
example (ppf : ℝ → ℝ → ℝ) (hppf : NormalQuantile ppf) : ∃ fuel p,
    fromMixtureWith fuel (ppf 1) 1 [1, 10, 100] [1 / 100, 98 / 100, 1 / 100] true 1e-4 (-50) false = some (.ok p) ∧
    Indist (mixUpper 1 ([1, 10, 100].zip [1 / 100, 98 / 100, 1 / 100]) .add) (mixLower 1 ([1, 10, 100].zip [1 / 100, 98 / 100, 1 / 100]) .add)
      (20 + 100 * 1e-6 / 1 ^ 2) (3 / 100) := by
  obtain ⟨⟨N, hN⟩, -⟩ := C75_buckets_violated hppf (disc := 1e-4) (by norm_num) (by norm_num)
  obtain ⟨p, hp, hle⟩ := hN N le_rfl
  exact ⟨N, p, hp, (C75_buckets_add (by norm_num) (by norm_num) (S := 100)
    (fun c hc _ _ => by rcases three_mem hc with rfl | rfl | rfl <;> norm_num) hp 20).mono hle⟩

end Verif.Props
