import Verif.Proofs.PldCompose

/-! `self_convolve`, `compute_self_convolve_bounds`, `self_compose`. -/

namespace Verif
open Spec PldPmf PldCommon Polynomial

lemma nfold_congr {a b : List (ℤ × ℝ)} (h : ∀ φ, expect a φ = expect b φ) (n : ℕ) (φ : ℤ → ℝ) :
    nfold a n φ = nfold b n φ := by
  induction n generalizing φ with
  | zero => rfl
  | succ n ih => simp only [nfold]; rw [h]; congr 1; ext k; exact ih _

lemma nfold_dense (d : Dense) (n : ℕ) (φ : ℤ → ℝ) :
    nfold d.points n φ = pE ((polyOf d.probs) ^ n) (fun s => φ (d.lowerLoss * n + s)) := by
  induction n generalizing φ with
  | zero => simp [nfold, pE_one]
  | succ n ih =>
    simp only [nfold]
    rw [pow_succ', pE_mul, expect_dense]
    congr 1; ext i
    rw [ih]
    congr 1; ext j
    congr 1; push_cast; ring

/-- the last draw may be split off instead of the first -/
lemma nfold_succ' (pts : List (ℤ × ℝ)) (n : ℕ) (φ : ℤ → ℝ) :
    nfold pts (n + 1) φ = nfold pts n fun m => expect pts fun k => φ (m + k) := by
  induction n generalizing φ with
  | zero => simp [nfold]
  | succ n ih =>
    rw [nfold]
    conv_rhs => rw [nfold]
    congr 1; ext k
    rw [ih]
    congr 1; ext m
    congr 1; ext k'
    congr 1; ring

lemma nfold_mono {pts : List (ℤ × ℝ)} (h : ∀ x ∈ pts, 0 ≤ x.2) (n : ℕ) {φ ψ : ℤ → ℝ} (hφ : ∀ k, φ k ≤ ψ k) :
    nfold pts n φ ≤ nfold pts n ψ := by
  induction n generalizing φ ψ with
  | zero => exact hφ 0
  | succ n ih => exact expect_mono h (fun x _ => ih (fun k => hφ _))

lemma nfold_const (pts : List (ℤ × ℝ)) (n : ℕ) (c : ℝ) : nfold pts n (fun _ => c) = (finiteMass pts) ^ n * c := by
  induction n with
  | zero => simp [nfold]
  | succ n ih => simp only [nfold, ih]; rw [expect_const]; ring

/-! ### polynomials with non-negative coefficients -/

def PNonneg (p : ℝ[X]) : Prop := ∀ i, 0 ≤ p.coeff i

lemma PNonneg.mul {p q : ℝ[X]} (hp : PNonneg p) (hq : PNonneg q) : PNonneg (p * q) := by
  intro i
  rw [coeff_mul]
  exact Finset.sum_nonneg (fun x _ => mul_nonneg (hp _) (hq _))

lemma PNonneg.pow {p : ℝ[X]} (hp : PNonneg p) (n : ℕ) : PNonneg (p ^ n) := by
  induction n with
  | zero => intro i; rw [pow_zero, coeff_one]; split_ifs <;> norm_num
  | succ n ih => rw [pow_succ]; exact ih.mul hp

lemma PNonneg.polyOf {l : List ℝ} (hl : ∀ v ∈ l, 0 ≤ v) : PNonneg (polyOf l) := by
  intro i
  rw [polyOf_coeff]
  by_cases h : i < l.length
  · rw [List.getD_eq_getElem _ _ h]; exact hl _ (List.getElem_mem _)
  · rw [List.getD_eq_default _ _ (not_lt.1 h)]

lemma pE_mono {p : ℝ[X]} (hp : PNonneg p) {f g : ℕ → ℝ} (h : ∀ i ≤ p.natDegree, f i ≤ g i) : pE p f ≤ pE p g := by
  rw [pE_eq_sum p f (p.natDegree + 1) (by omega), pE_eq_sum p g (p.natDegree + 1) (by omega)]
  exact Finset.sum_le_sum (fun i hi => mul_le_mul_of_nonneg_left (h i (by have := Finset.mem_range.1 hi; omega)) (hp i))

lemma pE_congr {p : ℝ[X]} {f g : ℕ → ℝ} (h : ∀ i ≤ p.natDegree, f i = g i) : pE p f = pE p g := by
  rw [pE_eq_sum p f (p.natDegree + 1) (by omega), pE_eq_sum p g (p.natDegree + 1) (by omega)]
  exact Finset.sum_congr rfl (fun i hi => by rw [h i (by have := Finset.mem_range.1 hi; omega)])

lemma pE_finsum (p : ℝ[X]) (K : ℕ) (f : ℕ → ℕ → ℝ) (g : ℕ → ℝ) :
    ∑ i ∈ Finset.range K, pE p (fun s => f i s) * g i = pE p (fun s => ∑ i ∈ Finset.range K, f i s * g i) := by
  simp only [pE_eq_sum p _ (p.natDegree + 1) (Nat.lt_succ_self _), Finset.sum_mul, Finset.mul_sum]
  rw [Finset.sum_comm]
  refine Finset.sum_congr rfl fun s _ => Finset.sum_congr rfl fun i _ => by ring

/-! ### the Chernoff window -/

lemma mgf_eq (order : ℝ) (i : ℕ) (l : List ℝ) :
    mgf order i l = wsum l (fun j => Real.exp (((i + j : ℕ) : ℝ) * order)) := by
  induction l generalizing i with
  | nil => rfl
  | cons v vs ih =>
    simp only [mgf, wsum_cons, ih, add_zero]
    congr 1
    apply wsum_congr
    intro j _
    congr 3
    omega

lemma pE_exp_pow (p : ℝ[X]) (n : ℕ) (order : ℝ) :
    pE (p ^ n) (fun s => Real.exp (s * order)) = (pE p (fun s => Real.exp (s * order))) ^ n := by
  induction n with
  | zero => simp [pE_one]
  | succ n ih =>
    rw [pow_succ', pE_mul, pow_succ', ← ih]
    have : ∀ i : ℕ, pE (p ^ n) (fun j => Real.exp (((i + j : ℕ) : ℝ) * order)) =
        Real.exp (i * order) * pE (p ^ n) (fun j => Real.exp (j * order)) := by
      intro i
      rw [← pE_fun_mul]
      congr 1; ext j
      rw [← Real.exp_add]; congr 1; push_cast; ring
    simp only [this]
    have h2 := pE_fun_mul p (pE (p ^ n) (fun j => Real.exp (j * order))) (fun i => Real.exp (i * order))
    rw [mul_comm, ← h2]
    congr 1; ext i; ring

/-- Chernoff bound at one order -/
lemma chernoff (l : List ℝ) (n : ℕ) (t order : ℝ) (hl : ∀ v ∈ l, 0 ≤ v) (ht : 0 < t) (hm : 0 < mgf order 0 l)
    (A : ℕ → Prop) [DecidablePred A] (hA : ∀ s : ℕ, A s → order * s ≥ n * Real.log (mgf order 0 l) + Real.log (2 / t)) :
    pE ((polyOf l) ^ n) (fun s => if A s then 1 else 0) ≤ t / 2 := by
  have hP := (PNonneg.polyOf hl).pow n
  have hM : mgf order 0 l = pE (polyOf l) (fun s => Real.exp (s * order)) := by
    rw [mgf_eq, wsum_pE]; simp
  have h1 : pE ((polyOf l) ^ n) (fun s => if A s then 1 else 0) ≤
      pE ((polyOf l) ^ n) (fun s => Real.exp (-(n * Real.log (mgf order 0 l) + Real.log (2 / t))) * Real.exp (s * order)) := by
    apply pE_mono hP
    intro s _
    split_ifs with h
    · rw [← Real.exp_add, ← Real.exp_zero]
      apply Real.exp_le_exp.2
      have := hA s h
      linarith [mul_comm order (s : ℝ)]
    · positivity
  refine h1.trans ?_
  rw [pE_fun_mul, pE_exp_pow, ← hM, Real.exp_neg, Real.exp_add, Real.exp_log (by positivity),
    Real.exp_nat_mul, Real.exp_log hm]
  have : (mgf order 0 l) ^ n ≠ 0 := pow_ne_zero _ hm.ne'
  field_simp
  exact le_refl _

/-- the tails outside the window `[lower, upper]` -/
def WindowOk (l : List ℝ) (n : ℕ) (t : ℝ) (lower upper : ℤ) : Prop :=
  0 ≤ lower ∧ upper ≤ ((l.length : ℤ) - 1) * n ∧ pE ((polyOf l) ^ n) (fun s => if (s : ℤ) < lower then 1 else 0) ≤ t / 2 ∧
    pE ((polyOf l) ^ n) (fun s => if upper < (s : ℤ) then 1 else 0) ≤ t / 2

lemma polyOf_pow_natDegree (l : List ℝ) (n : ℕ) : (polyOf l ^ n).natDegree ≤ n * (l.length - 1) :=
  natDegree_pow_le.trans (Nat.mul_le_mul_left _ (polyOf_natDegree_le l))

lemma windowOk_init (l : List ℝ) (n : ℕ) (t : ℝ) (ht : 0 ≤ t) (hl : l ≠ []) :
    WindowOk l n t 0 (((l.length : ℤ) - 1) * n) := by
  have hlen : 0 < l.length := List.length_pos_iff.2 hl
  have h0 : pE ((polyOf l) ^ n) (fun _ => (0 : ℝ)) = 0 := by
    have := pE_fun_mul ((polyOf l) ^ n) 0 (fun _ => 0)
    simpa using this
  refine ⟨le_refl _, le_refl _, ?_, ?_⟩
  · rw [pE_congr (g := fun _ => 0), h0]
    · linarith
    · intro i _; rw [if_neg]; omega
  · rw [pE_congr (g := fun _ => 0), h0]
    · linarith
    · intro i hi
      rw [if_neg]
      have h1 := hi.trans (polyOf_pow_natDegree l n)
      have h2 : (i : ℤ) ≤ ((n * (l.length - 1) : ℕ) : ℤ) := by exact_mod_cast h1
      rw [Nat.cast_mul, Nat.cast_sub hlen] at h2
      push_cast at h2
      linarith [mul_comm (n : ℤ) ((l.length : ℤ) - 1)]

lemma boundsLoop_window (l : List ℝ) (n : ℕ) (t : ℝ) (hl : ∀ v ∈ l, 0 ≤ v) (ht : 0 < t) (orders : List ℝ)
    {lower upper lo up : ℤ} (hw : WindowOk l n t lower upper) (h : boundsLoop l n t orders lower upper = .ok (lo, up)) :
    WindowOk l n t lo up := by
  induction orders generalizing lower upper with
  | nil =>
    simp only [boundsLoop, Except.ok.injEq, Prod.mk.injEq] at h
    obtain ⟨rfl, rfl⟩ := h; exact hw
  | cons order orders ih =>
    rw [boundsLoop] at h
    rw [if_neg (not_lt.2 ht.le)] at h
    by_cases ho : order = 0
    · rw [if_pos ho] at h; simp at h
    rw [if_neg ho] at h
    by_cases hm : mgf order 0 l = 0
    · rw [if_pos hm] at h; simp at h
    rw [if_neg hm] at h
    by_cases hm2 : mgf order 0 l < 0
    · rw [if_pos hm2] at h; simp at h
    rw [if_neg hm2] at h
    have hmp : 0 < mgf order 0 l := lt_of_le_of_ne (not_lt.1 hm2) (Ne.symm hm)
    simp only at h
    set B := (n : ℝ) * Real.log (mgf order 0 l) + Real.log (2 / t) with hB
    by_cases hpos : order > 0
    · rw [if_pos hpos] at h
      refine ih ⟨hw.1, (min_le_left _ _).trans hw.2.1, hw.2.2.1, ?_⟩ h
      rcases min_choice upper ⌈B / order⌉ with hmin | hmin
      · rw [hmin]; exact hw.2.2.2
      · rw [hmin]
        apply chernoff l n t order hl ht hmp
        intro s hs
        have h1 : B / order ≤ (s : ℝ) := by
          have : ((⌈B / order⌉ : ℤ) : ℝ) ≤ ((s : ℤ) : ℝ) := by exact_mod_cast hs.le
          exact (Int.le_ceil _).trans (by simpa using this)
        rw [div_le_iff₀ hpos] at h1
        linarith [mul_comm order (s : ℝ)]
    · rw [if_neg hpos] at h
      have hneg : order < 0 := lt_of_le_of_ne (not_lt.1 hpos) ho
      refine ih ⟨hw.1.trans (le_max_left _ _), hw.2.1, ?_, hw.2.2.2⟩ h
      rcases max_choice lower ⌊B / order⌋ with hmax | hmax
      · rw [hmax]; exact hw.2.2.1
      · rw [hmax]
        apply chernoff l n t order hl ht hmp
        intro s hs
        have h1 : (s : ℝ) ≤ B / order := by
          have : ((s : ℤ) : ℝ) ≤ ((⌊B / order⌋ : ℤ) : ℝ) := by exact_mod_cast hs.le
          exact (by simpa using this : (s : ℝ) ≤ _).trans (Int.floor_le _)
        rw [le_div_iff_of_neg hneg] at h1
        linarith [mul_comm order (s : ℝ)]

/-- the bounds computation succeeds on every non-zero non-negative list -/
lemma boundsLoop_ok (l : List ℝ) (n : ℕ) (t : ℝ) (hl : ∀ v ∈ l, 0 ≤ v) (hs : 0 < l.sum) (ht : 0 ≤ t) (orders : List ℝ)
    (ho : ∀ o ∈ orders, o ≠ 0) (lower upper : ℤ) : ∃ r, boundsLoop l n t orders lower upper = .ok r := by
  induction orders generalizing lower upper with
  | nil => exact ⟨_, rfl⟩
  | cons order orders ih =>
    have hm : 0 < mgf order 0 l := by
      rw [mgf_eq, wsum_eq_sum]
      have hg : ∀ i, 0 ≤ l.getD i 0 := by
        intro i
        by_cases h : i < l.length
        · rw [List.getD_eq_getElem _ _ h]; exact hl _ (List.getElem_mem _)
        · rw [List.getD_eq_default _ _ (not_lt.1 h)]
      have hne : ∃ i ∈ Finset.range l.length, 0 < l.getD i 0 := by
        by_contra hcon
        push Not at hcon
        have : l.sum = ∑ i ∈ Finset.range l.length, l.getD i 0 * 1 := by
          have := wsum_eq_sum l (fun _ => 1)
          rw [wsum_const, mul_one] at this; exact this
        have h2 : ∑ i ∈ Finset.range l.length, l.getD i 0 * 1 ≤ 0 :=
          Finset.sum_nonpos (fun i hi => by rw [mul_one]; exact hcon i hi)
        linarith
      obtain ⟨i, hi, hpos⟩ := hne
      exact Finset.sum_pos' (fun i _ => mul_nonneg (hg i) (Real.exp_pos _).le)
        ⟨i, hi, mul_pos hpos (Real.exp_pos _)⟩
    have hrec := fun lo up => ih (fun o h => ho o (by simp [h])) lo up
    rw [boundsLoop, if_neg (not_lt.2 ht), if_neg (ho order (by simp)), if_neg hm.ne', if_neg (not_lt.2 hm.le)]
    simp only
    split_ifs
    · exact hrec _ _
    · exact hrec _ _

/-! ### `self_convolve` -/

lemma rolled_entry (l : List ℝ) (N n i : ℕ) (lower : ℤ) (hN : 0 < N) (hl : l.length ≤ N) :
    (ifft (fun k => (fft l N k) ^ n) N (((i : ℤ) + lower) % (N : ℤ)).toNat).re =
      pE ((polyOf l) ^ n) (fun s => if (N : ℤ) ∣ (i : ℤ) + lower - s then 1 else 0) := by
  rw [ifft_fft_pow l N n _ hN hl]
  apply pE_congr
  intro s _
  have hN' : (0 : ℤ) < N := by exact_mod_cast hN
  have h1 : (((((i : ℤ) + lower) % (N : ℤ)).toNat : ℕ) : ℤ) = ((i : ℤ) + lower) % (N : ℤ) :=
    Int.toNat_of_nonneg (Int.emod_nonneg _ hN'.ne')
  rw [h1]
  have h2 : ((N : ℤ) ∣ ((i : ℤ) + lower) % (N : ℤ) - s) ↔ ((N : ℤ) ∣ (i : ℤ) + lower - s) := by
    rw [Int.dvd_iff_emod_eq_zero, Int.dvd_iff_emod_eq_zero, Int.sub_emod, Int.emod_emod_of_dvd _ (dvd_refl _), ← Int.sub_emod]
  by_cases h : (N : ℤ) ∣ (i : ℤ) + lower - s
  · rw [if_pos h, if_pos (h2.2 h)]
  · rw [if_neg h, if_neg (fun h' => h (h2.1 h'))]

/-- the weight an outcome `s` gets in the output window -/
lemma alias_sum (N K : ℕ) (lower s : ℤ) (hN : 0 < N) (hK : K ≤ N) (g : ℕ → ℝ) :
    ∑ i ∈ Finset.range K, (if (N : ℤ) ∣ (i : ℤ) + lower - s then 1 else 0) * g i =
      if ((s - lower) % (N : ℤ)).toNat < K then g ((s - lower) % (N : ℤ)).toNat else 0 := by
  have hN' : (0 : ℤ) < N := by exact_mod_cast hN
  set i0 := ((s - lower) % (N : ℤ)).toNat with hi0
  have h1 : (i0 : ℤ) = (s - lower) % (N : ℤ) := Int.toNat_of_nonneg (Int.emod_nonneg _ hN'.ne')
  have h2 : (i0 : ℤ) < N := by rw [h1]; exact Int.emod_lt_of_pos _ hN'
  have key : ∀ i ∈ Finset.range K, (if (N : ℤ) ∣ (i : ℤ) + lower - s then (1 : ℝ) else 0) * g i =
      if i0 = i then g i else 0 := by
    intro i hi
    have hiK := Finset.mem_range.1 hi
    have hiff : ((N : ℤ) ∣ (i : ℤ) + lower - s) ↔ i0 = i := by
      have e1 : (i : ℤ) + lower - s = (i : ℤ) - (s - lower) := by ring
      rw [e1, Int.dvd_iff_emod_eq_zero, ← Int.emod_eq_emod_iff_emod_sub_eq_zero, ← h1,
        Int.emod_eq_of_lt (by omega) (by omega)]
      omega
    by_cases h : i0 = i
    · rw [if_pos h, if_pos (hiff.2 h), one_mul]
    · rw [if_neg h, if_neg (fun h' => h (hiff.1 h')), zero_mul]
  rw [Finset.sum_congr rfl key, Finset.sum_ite_eq]
  simp only [Finset.mem_range]

lemma sliceTo_take (a : List ℝ) (n : ℤ) : ∃ K, sliceTo a n = a.take K ∧ (0 ≤ n → K = n.toNat) := by
  unfold sliceTo
  by_cases h : 0 ≤ n
  · rw [if_pos h]; exact ⟨_, rfl, fun _ => rfl⟩
  · rw [if_neg h]; exact ⟨_, rfl, fun h' => absurd h' h⟩

/-- What `self_convolve` returns, in terms of the exact `n`-fold convolution. -/
lemma selfConvolve_wsum {nfl : ℕ → ℕ} (hnfl : ∀ k, k ≤ nfl k) {l : List ℝ} {n : ℕ} {t : ℝ} {lower : ℤ} {ps : List ℝ}
    (h : selfConvolve nfl l n t = .ok (lower, ps)) :
    ∃ upper, computeSelfConvolveBounds l n t (defaultOrders l.length) = .ok (lower, upper) ∧
      ∃ (N K : ℕ), 0 < N ∧ K ≤ N ∧ ps.length = K ∧ (0 ≤ upper - lower + 1 → (K : ℤ) = upper - lower + 1) ∧
      l ≠ [] ∧ ∀ g : ℕ → ℝ, wsum ps g = pE ((polyOf l) ^ n) (fun s =>
        if (((s : ℤ) - lower) % (N : ℤ)).toNat < K then g (((s : ℤ) - lower) % (N : ℤ)).toNat else 0) := by
  unfold selfConvolve at h
  by_cases hl : l.length = 0
  · rw [if_pos hl] at h; simp at h
  rw [if_neg hl] at h
  cases hb : computeSelfConvolveBounds l n t (defaultOrders l.length) with
  | error e => rw [hb] at h; simp at h
  | ok r =>
    obtain ⟨lo, up⟩ := r
    rw [hb] at h
    simp only [Except.ok.injEq, Prod.mk.injEq] at h
    obtain ⟨rfl, hps⟩ := h
    set N := nfl (max (up - lo + 1) (l.length : ℤ)).toNat with hNdef
    have hN1 : (max (up - lo + 1) (l.length : ℤ)).toNat ≤ N := hnfl _
    have hlN : l.length ≤ N := by
      have := le_max_right (up - lo + 1) (l.length : ℤ); omega
    have hN : 0 < N := by omega
    refine ⟨up, rfl, N, ps.length, hN, ?_, rfl, ?_, ?_, ?_⟩
    · rw [← hps]
      obtain ⟨K, hK, -⟩ := sliceTo_take ((List.range N).map fun (i : ℕ) =>
        (ifft (fun k => (fft l N k) ^ n) N (((i : ℤ) + lo) % (N : ℤ)).toNat).re) (up - lo + 1)
      rw [hK]; simp
    · intro h0
      rw [← hps]
      have hle := le_max_left (up - lo + 1) (l.length : ℤ)
      unfold sliceTo
      rw [if_pos h0, List.length_take, List.length_map, List.length_range]
      omega
    · intro h0; rw [h0] at hl; simp at hl
    · intro g
      obtain ⟨K, hK, -⟩ := sliceTo_take ((List.range N).map fun (i : ℕ) =>
        (ifft (fun k => (fft l N k) ^ n) N (((i : ℤ) + lo) % (N : ℤ)).toNat).re) (up - lo + 1)
      have hps' := hps
      rw [hK] at hps'
      have hlen : ps.length ≤ N := by rw [← hps']; simp
      rw [wsum_eq_sum]
      have hent : ∀ i ∈ Finset.range ps.length, ps.getD i 0 * g i =
          pE ((polyOf l) ^ n) (fun s => if (N : ℤ) ∣ (i : ℤ) + lo - s then 1 else 0) * g i := by
        intro i hi
        have hi' := Finset.mem_range.1 hi
        rw [← rolled_entry l N n i lo hN hlN]
        congr 1
        rw [List.getD_eq_getElem _ _ hi']
        simp only [← hps', List.getElem_take, List.getElem_map, List.getElem_range]
      rw [Finset.sum_congr rfl hent, pE_finsum]
      apply pE_congr
      intro s _
      exact alias_sum N ps.length lo s hN hlen g

/-- exactness without truncation -/
lemma selfConvolve_exact {nfl : ℕ → ℕ} (hnfl : ∀ k, k ≤ nfl k) {l : List ℝ} {n : ℕ} {lower : ℤ} {ps : List ℝ}
    (h : selfConvolve nfl l n 0 = .ok (lower, ps)) :
    lower = 0 ∧ (ps.length : ℤ) = ((l.length : ℤ) - 1) * n + 1 ∧ ∀ g : ℕ → ℝ, wsum ps g = pE ((polyOf l) ^ n) g := by
  obtain ⟨upper, hb, N, K, hN, hKN, hK, hKu, hne, hsum⟩ := selfConvolve_wsum hnfl h
  unfold computeSelfConvolveBounds at hb
  rw [if_pos rfl] at hb
  simp only [Except.ok.injEq, Prod.mk.injEq] at hb
  obtain ⟨rfl, rfl⟩ := hb
  have hlen : 0 < l.length := List.length_pos_iff.2 hne
  have hup : (0 : ℤ) ≤ ((l.length : ℤ) - 1) * n := mul_nonneg (by omega) (by omega)
  have hKv := hKu (by omega)
  refine ⟨rfl, by rw [hK]; omega, fun g => ?_⟩
  rw [hsum]
  apply pE_congr
  intro s hs
  have h1 := hs.trans (polyOf_pow_natDegree l n)
  have h2 : (s : ℤ) ≤ ((n * (l.length - 1) : ℕ) : ℤ) := by exact_mod_cast h1
  rw [Nat.cast_mul, Nat.cast_sub hlen] at h2
  have h3 : (n : ℤ) * ((l.length : ℤ) - 1) = ((l.length : ℤ) - 1) * n := mul_comm _ _
  push_cast at h2
  have h4 : (((s : ℤ) - 0) % (N : ℤ)).toNat = s := by
    rw [sub_zero, Int.emod_eq_of_lt (by omega) (by omega)]; simp
  rw [h4, if_pos]
  omega

/-- error bound with truncation: two-sided, for every `[0,1]`-valued test function -/
lemma selfConvolve_trunc {nfl : ℕ → ℕ} (hnfl : ∀ k, k ≤ nfl k) {l : List ℝ} {n : ℕ} {t : ℝ} {lower : ℤ} {ps : List ℝ}
    (h : selfConvolve nfl l n t = .ok (lower, ps)) (hl : ∀ v ∈ l, 0 ≤ v) (ht : 0 < t)
    (φ : ℤ → ℝ) (h0 : ∀ k, 0 ≤ φ k) (h1 : ∀ k, φ k ≤ 1) :
    pE ((polyOf l) ^ n) (fun s => φ s) ≤ wsum ps (fun i => φ (lower + i)) + t ∧
      wsum ps (fun i => φ (lower + i)) ≤ pE ((polyOf l) ^ n) (fun s => φ s) + t := by
  classical
  obtain ⟨upper, hb, N, K, hN, hKN, hK, hKu, hne, hsum⟩ := selfConvolve_wsum hnfl h
  unfold computeSelfConvolveBounds at hb
  rw [if_neg ht.ne'] at hb
  have hw := boundsLoop_window l n t hl ht _ (windowOk_init l n t ht.le hne) hb
  have hP := (PNonneg.polyOf hl).pow n
  rw [hsum]
  set W : ℕ → ℝ := fun s => if (((s : ℤ) - lower) % (N : ℤ)).toNat < K then
    φ (lower + ((((s : ℤ) - lower) % (N : ℤ)).toNat : ℕ)) else 0 with hW
  set out : ℕ → ℝ := fun s => (if (s : ℤ) < lower then 1 else 0) + (if upper < (s : ℤ) then 1 else 0) with hout
  have hWin : ∀ s : ℕ, lower ≤ s → (s : ℤ) ≤ upper → W s = φ s := by
    intro s hs1 hs2
    have hKv := hKu (by omega)
    have e1 : ((s : ℤ) - lower) % (N : ℤ) = (s : ℤ) - lower := Int.emod_eq_of_lt (by omega) (by omega)
    simp only [hW]
    rw [e1, if_pos (by omega)]
    congr 1
    rw [Int.toNat_of_nonneg (by omega)]; ring
  have hW0 : ∀ s, 0 ≤ W s := by intro s; simp only [hW]; split_ifs <;> simp [h0]
  have hW1 : ∀ s, W s ≤ 1 := by intro s; simp only [hW]; split_ifs <;> simp [h1]
  have houtS : pE ((polyOf l) ^ n) out ≤ t := by
    rw [hout, pE_fun_add]; linarith [hw.2.2.1, hw.2.2.2]
  have hA : ∀ s : ℕ, φ s ≤ W s + out s ∧ W s ≤ φ s + out s := by
    intro s
    by_cases hin : lower ≤ (s : ℤ) ∧ (s : ℤ) ≤ upper
    · rw [hWin s hin.1 hin.2]
      have : out s = 0 := by
        simp only [hout]; rw [if_neg (by omega), if_neg (by omega)]; ring
      rw [this]; simp
    · have : 1 ≤ out s := by
        simp only [hout]
        by_cases hlt : (s : ℤ) < lower
        · rw [if_pos hlt]; split_ifs <;> norm_num
        · rw [if_neg hlt, if_pos (by omega)]; norm_num
      constructor <;> linarith [h0 s, h1 s, hW0 s, hW1 s]
  have m1 := pE_mono hP (f := fun s => φ s) (g := fun s => W s + out s) (fun s _ => (hA s).1)
  have m2 := pE_mono hP (f := W) (g := fun s => φ s + out s) (fun s _ => (hA s).2)
  rw [pE_fun_add] at m1 m2
  constructor <;> linarith

lemma selfConvolve_nonneg {nfl : ℕ → ℕ} (hnfl : ∀ k, k ≤ nfl k) {l : List ℝ} {n : ℕ} {t : ℝ} {lower : ℤ} {ps : List ℝ}
    (h : selfConvolve nfl l n t = .ok (lower, ps)) (hl : ∀ v ∈ l, 0 ≤ v) : ∀ v ∈ ps, 0 ≤ v := by
  obtain ⟨upper, hb, N, K, hN, hKN, hK, hKu, hne, hsum⟩ := selfConvolve_wsum hnfl h
  intro v hv
  obtain ⟨i, hi, rfl⟩ := List.mem_iff_getElem.1 hv
  have h1 := hsum (fun j => if i = j then 1 else 0)
  rw [wsum_eq_sum] at h1
  simp only [mul_ite, mul_one, mul_zero] at h1
  rw [Finset.sum_ite_eq, if_pos (Finset.mem_range.2 hi), List.getD_eq_getElem _ _ hi] at h1
  rw [h1]
  have h2 := pE_mono ((PNonneg.polyOf hl).pow n) (f := fun _ => 0) (g := fun s =>
    if (((s : ℤ) - lower) % (N : ℤ)).toNat < K then (if i = (((s : ℤ) - lower) % (N : ℤ)).toNat then (1 : ℝ) else 0)
    else 0) (fun s _ => by split_ifs <;> norm_num)
  have h0 : pE ((polyOf l) ^ n) (fun _ => (0 : ℝ)) = 0 := by
    have := pE_fun_mul ((polyOf l) ^ n) 0 (fun _ => 0)
    simpa using this
  linarith

lemma selfConvolve_ok (nfl : ℕ → ℕ) (l : List ℝ) (n : ℕ) (t : ℝ) (hl : ∀ v ∈ l, 0 ≤ v) (hs : 0 < l.sum) (ht : 0 ≤ t) :
    ∃ r, selfConvolve nfl l n t = .ok r := by
  have hne : l.length ≠ 0 := by
    intro h0; rw [List.length_eq_zero_iff.1 h0] at hs; simp at hs
  have hb : ∃ r, computeSelfConvolveBounds l n t (defaultOrders l.length) = .ok r := by
    unfold computeSelfConvolveBounds
    split_ifs
    · exact ⟨_, rfl⟩
    · apply boundsLoop_ok l n t hl hs ht
      intro o ho
      unfold defaultOrders at ho
      obtain ⟨k, hk, rfl⟩ := List.mem_map.1 ho
      have hk0 : k ≠ 0 := by
        rcases List.mem_append.1 hk with h | h
        · unfold pyRange at h
          obtain ⟨i, hi, rfl⟩ := List.mem_map.1 h
          have := List.mem_range.1 hi; simp at this; omega
        · unfold pyRange at h
          obtain ⟨i, hi, rfl⟩ := List.mem_map.1 h
          omega
      exact div_ne_zero (by exact_mod_cast hk0) (by exact_mod_cast hne)
  obtain ⟨⟨lo, up⟩, hb⟩ := hb
  unfold selfConvolve
  rw [if_neg hne, hb]
  exact ⟨_, rfl⟩

end Verif
