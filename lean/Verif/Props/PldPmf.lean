import Verif.Proofs.PldPmfSelf
import Verif.Proofs.PldComposedDelta
import Verif.Proofs.PldDict
import Verif.Proofs.PldEpsilon

/-!
# C11–C18: privacy loss PMFs (`pld_pmf.py`, `common.py`)

Specification vocabulary is in `Verif/Spec/LossDist.lean`: `Pmf.hs` is the hockey-stick divergence of the distribution a
stored PMF stands for, `Pmf.sumHs` that of the sum of two independent losses, `Pmf.nfoldHs` that of `n`.
-/

namespace Verif.Props
open Verif Verif.Spec Verif.PldPmf Verif.PldCommon

/-- A concrete dense PMF: losses 0, 1, 2 with mass 1/4 each, 1/4 at infinity. -/
noncomputable def exDense : Pmf := .dense ⟨1, 0, [1/4, 1/4, 1/4], 1/4, true⟩

/-- A concrete sparse PMF on the same grid: losses -3 and 5, nothing at infinity. -/
noncomputable def exSparse : Pmf := .sparse ⟨[(5, 1/2), (-3, 1/2)], 1, 0, true⟩

lemma exDense_ok : exDense.WF ∧ exDense.NonNeg ∧ exDense.points ≠ [] ∧ totalMass exDense = 1 := by
  refine ⟨by norm_num [exDense, Pmf.WF], ⟨by norm_num [exDense, Pmf.infinityMass], ?_⟩, ?_, ?_⟩
  · exact (dense_nonneg_iff _).2 (by intro v hv; simp at hv; rw [hv]; norm_num)
  · simp [exDense, Pmf.points, Dense.points]
  · unfold totalMass finiteMass exDense
    simp only [Pmf.points]
    rw [expect_dense_wsum]
    norm_num [wsum, Pmf.infinityMass]

lemma exSparse_ok : exSparse.WF ∧ exSparse.NonNeg ∧ exSparse.points ≠ [] ∧ totalMass exSparse = 1 := by
  refine ⟨⟨by norm_num, by norm_num [PyDict.keys]⟩, ⟨by norm_num [exSparse, Pmf.infinityMass], ?_⟩, ?_, ?_⟩
  · intro x hx
    simp [exSparse, Pmf.points] at hx
    rcases hx with rfl | rfl <;> norm_num
  · simp [exSparse, Pmf.points]
  · norm_num [totalMass, finiteMass, exSparse, expect, Pmf.points, Pmf.infinityMass]

/-! ## C11 -/

/-- **C11.** The scalar path of `get_delta_for_epsilon`, dense or sparse, returns
`infinity_mass + Σ_{losses} max(0, 1 - e^(eps - loss)) · p(loss)`, for every (also infinite) `eps`. -/
theorem C11_delta_exact (m : Pmf) (h : m.WF) (e : EReal) : m.getDeltaForEpsilon e = m.hs e := Pmf.getDelta_eq_hs m h e

/-- **C11.** The vectorised path returns the same numbers, for every sorted vector of epsilons. -/
theorem C11_delta_vectorised (m : Pmf) (h : m.WF) (es : List EReal) (hs : es.Pairwise (· ≤ ·)) :
    m.getDeltaForEpsilons es = .ok (es.map m.hs) := Pmf.getDeltas_eq m h es hs

/-- **C11.** An unsorted vector is rejected. -/
theorem C11_unsorted_rejected (m : Pmf) (es : List EReal) (hs : ¬ es.Pairwise (· ≤ ·)) :
    m.getDeltaForEpsilons es = .error .valueError := Pmf.getDeltas_unsorted m es hs

/-- **C11.** The reported delta is non-increasing in `eps`, at least the infinity mass and at most the total mass. -/
theorem C11_delta_monotone_bounded (m : Pmf) (h : m.WF) (hn : m.NonNeg) :
    (∀ e1 e2 : EReal, e1 ≤ e2 → m.getDeltaForEpsilon e2 ≤ m.getDeltaForEpsilon e1) ∧
    ∀ e : EReal, m.infinityMass ≤ m.getDeltaForEpsilon e ∧ m.getDeltaForEpsilon e ≤ totalMass m := by
  refine ⟨fun e1 e2 he => ?_, fun e => ?_⟩
  · rw [C11_delta_exact m h, C11_delta_exact m h]; exact hs_mono_of_nonneg hn he
  · rw [C11_delta_exact m h]
    unfold Pmf.hs hockeyStick totalMass finiteMass
    have h1 := expect_nonneg hn.2 (φ := fun k => hinge e (k * m.disc)) (fun x _ => hinge_nonneg _ _)
    have h2 := expect_mono hn.2 (φ := fun k => hinge e (k * m.disc)) (ψ := fun _ => 1) (fun x _ => hinge_le_one _ _)
    constructor <;> linarith

/-- Non-vacuity, and the formula on a concrete PMF: at `eps = 1` only the loss 2 counts. -/
example : exDense.getDeltaForEpsilon ((1 : ℝ) : EReal) = 1/4 + 1/4 * (1 - Real.exp (-1)) := by
  rw [C11_delta_exact _ exDense_ok.1]
  simp only [Pmf.hs, hockeyStick, exDense, Pmf.points, Pmf.disc, Pmf.infinityMass]
  rw [expect_dense_wsum]
  simp only [wsum, hinge_coe]
  have e0 : max 0 (1 - Real.exp (1 - ((0 + (0 : ℕ) : ℤ) : ℝ) * 1)) = 0 := by
    rw [max_eq_left]; norm_num
  have e1 : max 0 (1 - Real.exp (1 - ((0 + ((0 + 1 : ℕ) : ℤ) : ℤ) : ℝ) * 1)) = 0 := by
    rw [max_eq_left]; norm_num
  have e2 : max 0 (1 - Real.exp (1 - ((0 + ((0 + 1 + 1 : ℕ) : ℤ) : ℤ) : ℝ) * 1)) = 1 - Real.exp (-1) := by
    rw [max_eq_right]
    · norm_num
    · norm_num
  rw [e0, e1, e2]; ring

example : ¬ ([(1 : EReal), 0] : List EReal).Pairwise (· ≤ ·) := by
  simp

/-! ## C12 -/

/-- **C12.** `get_epsilon_for_delta` is infinite iff the infinity mass exceeds `delta`; otherwise it is a finite
`eps ≥ 0` at which the reported delta is at most `delta`. -/
theorem C12_epsilon_valid (m : Pmf) (h : m.WF) (hn : m.NonNeg) (δ : ℝ) :
    (m.getEpsilonForDelta δ = ⊤ ↔ δ < m.infinityMass) ∧
    (m.infinityMass ≤ δ → ∃ r : ℝ, m.getEpsilonForDelta δ = (r : EReal) ∧ 0 ≤ r ∧ m.getDeltaForEpsilon r ≤ δ) := by
  have := Pmf.getEpsilon_spec m h hn δ
  refine ⟨this.1, fun hle => ?_⟩
  obtain ⟨r, h1, h2, h3, _⟩ := this.2 hle
  exact ⟨r, h1, h2, by rw [C11_delta_exact m h]; exact h3⟩

/-- **C12 (partial).** The returned epsilon is the smallest non-negative one, provided that `infinity_mass < delta` or
that the largest stored loss has positive mass. Missing: the case `infinity_mass = delta` with a zero mass stored at the
largest loss, where the claim is false (`C12_zero_mass_not_smallest`). -/
theorem C12_epsilon_smallest_partial (m : Pmf) (h : m.WF) (hn : m.NonNeg) (δ : ℝ)
    (hc : m.infinityMass < δ ∨ ∀ x ∈ m.points, (∀ y ∈ m.points, y.1 ≤ x.1) → 0 < x.2)
    (e : ℝ) (he : 0 ≤ e) (hlt : (e : EReal) < m.getEpsilonForDelta δ) : δ < m.getDeltaForEpsilon e := by
  rw [C11_delta_exact m h]
  have := Pmf.getEpsilon_spec m h hn δ
  by_cases hi : m.infinityMass ≤ δ
  · obtain ⟨r, h1, h2, h3, h4⟩ := this.2 hi
    rw [h1] at hlt
    exact h4 hc e he (by exact_mod_cast hlt)
  · have h1 : m.infinityMass ≤ m.hs e := by
      unfold Pmf.hs hockeyStick
      have := expect_nonneg hn.2 (φ := fun k => hinge (e : EReal) (k * m.disc)) (fun x _ => hinge_nonneg _ _)
      linarith
    linarith [not_le.1 hi]

/-- The two theorems apply to a concrete PMF, with a finite answer. -/
example : ∃ r : ℝ, exDense.getEpsilonForDelta (1/3) = (r : EReal) ∧ exDense.getDeltaForEpsilon r ≤ 1/3 ∧
    ∀ e : ℝ, 0 ≤ e → e < r → 1/3 < exDense.getDeltaForEpsilon e := by
  have hi : exDense.infinityMass = 1/4 := rfl
  obtain ⟨r, h1, _, h3⟩ := (C12_epsilon_valid exDense exDense_ok.1 exDense_ok.2.1 (1/3)).2 (by rw [hi]; norm_num)
  refine ⟨r, h1, h3, fun e he hlt => ?_⟩
  exact C12_epsilon_smallest_partial exDense exDense_ok.1 exDense_ok.2.1 (1/3) (Or.inl (by rw [hi]; norm_num)) e he
    (by rw [h1]; exact_mod_cast hlt)

/-- **C12 (disagreement).** With `delta = infinity_mass` and a zero mass stored at the largest loss the code returns that
loss, although a smaller epsilon is valid: losses 0 (mass 1) and 1 (mass 0), `delta = 0`: returned 1, but 0 is valid. -/
theorem C12_zero_mass_not_smallest : ∃ m : Pmf, m.WF ∧ m.NonNeg ∧ totalMass m = 1 ∧
    m.getEpsilonForDelta 0 = ((1 : ℝ) : EReal) ∧ m.getDeltaForEpsilon ((0 : ℝ) : EReal) ≤ 0 := by
  have hw : (Pmf.dense ⟨1, 0, [1, 0], 0, true⟩).WF := by norm_num [Pmf.WF]
  refine ⟨.dense ⟨1, 0, [1, 0], 0, true⟩, hw, ⟨by norm_num [Pmf.infinityMass], ?_⟩, ?_, ?_, ?_⟩
  · exact (dense_nonneg_iff _).2 (by intro v hv; simp at hv; rcases hv with rfl | rfl <;> norm_num)
  · unfold totalMass finiteMass
    simp only [Pmf.points]
    rw [expect_dense_wsum]
    norm_num [wsum, Pmf.infinityMass]
  · simp only [Pmf.getEpsilonForDelta, Dense.getEpsilonForDelta, getEpsilon]
    norm_num [Dense.reversedLosses, List.range_succ, epsilonLoop]
  · rw [C11_delta_exact _ hw]
    simp only [Pmf.hs, hockeyStick, Pmf.points, Pmf.disc, Pmf.infinityMass]
    rw [expect_dense_wsum]
    simp only [wsum, hinge_coe]
    norm_num

/-! ## C13 -/

/-- **C13.** Without truncation the composition of two PMFs (any representations) is the distribution of the sum of
independent losses: the finite part is the convolution, the infinity mass `1 - (1-a)(1-b)`. -/
theorem C13_compose_convolution (a b c : Pmf) (ha : a.WF) (hb : b.WF) (h : composePmfs a b 0 = .ok c) :
    (∀ φ : ℤ → ℝ, expect c.points φ = expect a.points fun i => expect b.points fun j => φ (i + j)) ∧
    c.infinityMass = 1 - (1 - a.infinityMass) * (1 - b.infinityMass) ∧ c.disc = a.disc ∧
    c.pessimistic = a.pessimistic ∧ c.WF := by
  have sp := composePmfs_spec h ha hb
  refine ⟨fun φ => sp.exact_dist rfl φ, ?_, sp.disc, sp.pess, sp.wf ha hb⟩
  rw [sp.exact_inf rfl]; ring

/-- **C13.** The delta reported for an untruncated composition is the hockey-stick divergence of the sum. -/
theorem C13_compose_delta (a b c : Pmf) (ha : a.WF) (hb : b.WF) (h : composePmfs a b 0 = .ok c) (e : EReal) :
    c.getDeltaForEpsilon e = a.sumHs b e := by
  obtain ⟨h1, h2, h3, _, h5⟩ := C13_compose_convolution a b c ha hb h
  rw [C11_delta_exact c h5]
  unfold Pmf.hs hockeyStick Pmf.sumHs
  rw [h1, h2, h3]
  simp only [Int.cast_add]

/-- **C13 (success).** Composition succeeds on compatible non-empty PMFs (with truncation: if more than half of the
truncated mass is there). -/
theorem C13_compose_succeeds (a b : Pmf) (t : ℝ) (ha : a.WF) (hb : b.WF) (hna : a.NonNeg) (hnb : b.NonNeg)
    (hd : a.disc = b.disc) (hp : a.pessimistic = b.pessimistic) (ha0 : a.points ≠ []) (hb0 : b.points ≠ [])
    (ht : t = 0 ∨ 0 ≤ t ∧ t / 2 < finiteMass a.points * finiteMass b.points) : ∃ c, composePmfs a b t = .ok c :=
  composePmfs_ok hna hnb ha hb hd hp ha0 hb0 ht

/-- **C13 (commutativity).** -/
theorem C13_compose_comm (a b c c' : Pmf) (ha : a.WF) (hb : b.WF) (h : composePmfs a b 0 = .ok c)
    (h' : composePmfs b a 0 = .ok c') : SameDist c c' := by
  have sp := composePmfs_spec h ha hb
  have sp' := composePmfs_spec h' hb ha
  refine ⟨by rw [sp.disc, sp'.disc, sp.disc'], by rw [sp.pess, sp'.pess, sp.pess'], ?_, fun φ => ?_⟩
  · rw [sp.exact_inf rfl, sp'.exact_inf rfl]; ring
  · rw [sp.exact_dist rfl, sp'.exact_dist rfl]
    unfold convE
    rw [expect_comm]
    exact expect_congr (fun x _ => expect_congr (fun y _ => by rw [add_comm]))

/-- **C13 (associativity).** -/
theorem C13_compose_assoc (a b c ab bc l r : Pmf) (ha : a.WF) (hb : b.WF) (hc : c.WF)
    (h1 : composePmfs a b 0 = .ok ab) (h2 : composePmfs ab c 0 = .ok l)
    (h3 : composePmfs b c 0 = .ok bc) (h4 : composePmfs a bc 0 = .ok r) : SameDist l r := by
  have s1 := composePmfs_spec h1 ha hb
  have s2 := composePmfs_spec h2 (s1.wf ha hb) hc
  have s3 := composePmfs_spec h3 hb hc
  have s4 := composePmfs_spec h4 ha (s3.wf hb hc)
  refine ⟨by rw [s2.disc, s1.disc, s4.disc], by rw [s2.pess, s1.pess, s4.pess], ?_, fun φ => ?_⟩
  · rw [s2.exact_inf rfl, s1.exact_inf rfl, s4.exact_inf rfl, s3.exact_inf rfl]; ring
  · rw [s2.exact_dist rfl, s4.exact_dist rfl]
    unfold convE
    rw [s1.exact_dist rfl]
    unfold convE
    congr 1; ext i
    rw [s3.exact_dist rfl]
    unfold convE
    exact expect_congr (fun x _ => expect_congr (fun y _ => by rw [add_assoc]))

/-- **C13 (neutral element).** The PMF `{0: 1}` is neutral on both sides. -/
theorem C13_compose_identity (m c : Pmf) (hm : m.WF) :
    (composePmfs m (.sparse ⟨[(0, 1)], m.disc, 0, m.pessimistic⟩) 0 = .ok c → SameDist c m) ∧
    (composePmfs (.sparse ⟨[(0, 1)], m.disc, 0, m.pessimistic⟩) m 0 = .ok c → SameDist c m) := by
  have hid : (Pmf.sparse ⟨[(0, 1)], m.disc, 0, m.pessimistic⟩).WF := by
    refine ⟨?_, by simp [PyDict.keys]⟩
    cases m with
    | dense d => exact hm
    | sparse s => exact hm.1
  have hone : ∀ φ : ℤ → ℝ, expect (Pmf.sparse ⟨[(0, 1)], m.disc, 0, m.pessimistic⟩).points φ = φ 0 := by
    intro φ; simp [Pmf.points, expect]
  constructor
  · intro h
    have sp := composePmfs_spec h hm hid
    refine ⟨sp.disc, sp.pess, ?_, fun φ => ?_⟩
    · rw [sp.exact_inf rfl]; simp [Pmf.infinityMass]
    · rw [sp.exact_dist rfl]; unfold convE
      simp only [hone, add_zero]
  · intro h
    have sp := composePmfs_spec h hid hm
    refine ⟨sp.disc, sp.pess, ?_, fun φ => ?_⟩
    · rw [sp.exact_inf rfl]; simp [Pmf.infinityMass]
    · rw [sp.exact_dist rfl]; unfold convE
      simp only [hone, zero_add]

/-- **C13 (mass).** Total mass one is preserved. -/
theorem C13_compose_mass (a b c : Pmf) (ha : a.WF) (hb : b.WF) (hma : totalMass a = 1) (hmb : totalMass b = 1)
    (h : composePmfs a b 0 = .ok c) : totalMass c = 1 := by
  have sp := composePmfs_spec h ha hb
  unfold totalMass at *
  rw [sp.exact_inf rfl]
  unfold finiteMass at *
  rw [sp.exact_dist rfl, convE_const]
  unfold finiteMass
  have e1 : expect a.points (fun _ => 1) = 1 - a.infinityMass := by linarith
  have e2 : expect b.points (fun _ => 1) = 1 - b.infinityMass := by linarith
  rw [e1, e2]; ring

/-- **C13.** `convolve_dictionary` computes the convolution of two dictionaries of non-negative masses. -/
theorem C13_convolve_dictionary (d1 d2 r : PyDict) (h : convolveDictionary d1 d2 0 = .ok r)
    (h1 : d1.keys.Nodup) (h2 : d2.keys.Nodup) (n1 : ∀ x ∈ d1, 0 ≤ x.2) (n2 : ∀ x ∈ d2, 0 ≤ x.2) (φ : ℤ → ℝ) :
    expect r φ = expect d1 fun i => expect d2 fun j => φ (i + j) := convolveDictionary_exact h h1 h2 n1 n2 φ

/-- Non-vacuity: a dense and a sparse PMF, composed both ways, and the exact delta of the result. -/
example : ∃ c c', composePmfs exDense exSparse 0 = .ok c ∧ composePmfs exSparse exDense 0 = .ok c' ∧
    SameDist c c' ∧ totalMass c = 1 ∧ c.getDeltaForEpsilon ((0 : ℝ) : EReal) = exDense.sumHs exSparse ((0 : ℝ) : EReal) := by
  obtain ⟨c, hc⟩ := C13_compose_succeeds exDense exSparse 0 exDense_ok.1 exSparse_ok.1 exDense_ok.2.1 exSparse_ok.2.1 rfl rfl
    exDense_ok.2.2.1 exSparse_ok.2.2.1 (Or.inl rfl)
  obtain ⟨c', hc'⟩ := C13_compose_succeeds exSparse exDense 0 exSparse_ok.1 exDense_ok.1 exSparse_ok.2.1 exDense_ok.2.1 rfl rfl
    exSparse_ok.2.2.1 exDense_ok.2.2.1 (Or.inl rfl)
  exact ⟨c, c', hc, hc', C13_compose_comm _ _ _ _ exDense_ok.1 exSparse_ok.1 hc hc',
    C13_compose_mass _ _ _ exDense_ok.1 exSparse_ok.1 exDense_ok.2.2.2 exSparse_ok.2.2.2 hc,
    C13_compose_delta _ _ _ exDense_ok.1 exSparse_ok.1 hc _⟩

/-! ## C14 -/

/-- **C14.** `get_delta_for_epsilon_for_composed_pld` equals composing (untruncated) and then asking for delta. -/
theorem C14_composed_delta (a b c : Pmf) (ha : a.WF) (hb : b.WF) (eps x : ℝ) (hc : composePmfs a b 0 = .ok c)
    (hx : a.deltaForComposed b eps = .ok x) : x = c.getDeltaForEpsilon eps := by
  obtain ⟨_, _, h⟩ := Pmf.deltaForComposed_spec ha hb hx
  rw [C13_compose_delta a b c ha hb hc, h]
  unfold Pmf.sumHs convE
  simp only [Int.cast_add]
  ring

/-- **C14 (success).** The loops terminate and the call succeeds on compatible non-empty PMFs. -/
theorem C14_composed_delta_succeeds (a b : Pmf) (ha : a.WF) (hb : b.WF) (hd : a.disc = b.disc)
    (hp : a.pessimistic = b.pessimistic) (ha0 : a.points ≠ []) (hb0 : b.points ≠ []) (eps : ℝ) :
    ∃ x, a.deltaForComposed b eps = .ok x := by
  obtain ⟨a', ha'⟩ := Pmf.toDense_ok ha0
  obtain ⟨b', hb'⟩ := Pmf.toDense_ok hb0
  obtain ⟨a1, a2, a3, a4, a5, a6⟩ := Pmf.toDense_spec ha' ha
  obtain ⟨b1, b2, b3, b4, b5, b6⟩ := Pmf.toDense_spec hb' hb
  unfold Pmf.deltaForComposed
  rw [ha', hb']
  simp only
  exact ⟨_, Dense.deltaForComposed_spec a' b' (by rw [a1, b1, hd]) (by rw [a3, b3, hp]) b5 eps⟩

example : ∃ x c, exDense.deltaForComposed exSparse (1/2) = .ok x ∧ composePmfs exDense exSparse 0 = .ok c ∧
    x = c.getDeltaForEpsilon ((1/2 : ℝ) : EReal) := by
  obtain ⟨c, hc⟩ := C13_compose_succeeds exDense exSparse 0 exDense_ok.1 exSparse_ok.1 exDense_ok.2.1 exSparse_ok.2.1 rfl rfl
    exDense_ok.2.2.1 exSparse_ok.2.2.1 (Or.inl rfl)
  obtain ⟨x, hx⟩ := C14_composed_delta_succeeds exDense exSparse exDense_ok.1 exSparse_ok.1 rfl rfl exDense_ok.2.2.1
    exSparse_ok.2.2.1 (1/2)
  exact ⟨x, c, hx, hc, C14_composed_delta _ _ _ exDense_ok.1 exSparse_ok.1 _ _ hc hx⟩

/-! ## C15 -/

lemma hinge_key_mono (e : EReal) {disc : ℝ} (hd : 0 < disc) : Monotone fun k : ℤ => hinge e (k * disc) := by
  intro i j hij
  apply hinge_mono
  have : (i : ℝ) ≤ j := by exact_mod_cast hij
  nlinarith

lemma _root_.Verif.Pmf.WF.disc_pos {m : Pmf} (h : m.WF) : 0 < m.disc := by
  cases m with
  | dense d => exact h
  | sparse s => exact h.1

/-- **C15.** Pessimistic truncation: for every `eps` the delta reported after composing with truncation `t` lies between
the delta of the untruncated composition and that plus `t`. -/
theorem C15_truncation_pessimistic (a b c x : Pmf) (t : ℝ) (ha : a.WF) (hb : b.WF) (hna : a.NonNeg) (hnb : b.NonNeg)
    (hp : a.pessimistic = true) (ht : 0 ≤ t) (hx : composePmfs a b 0 = .ok x) (hc : composePmfs a b t = .ok c) (e : EReal) :
    x.getDeltaForEpsilon e ≤ c.getDeltaForEpsilon e ∧ c.getDeltaForEpsilon e ≤ x.getDeltaForEpsilon e + t := by
  have sc := composePmfs_spec hc ha hb
  have sx := composePmfs_spec hx ha hb
  rw [C11_delta_exact c (sc.wf ha hb), C11_delta_exact x (sx.wf ha hb)]
  unfold Pmf.hs hockeyStick
  rw [sx.exact_inf rfl, sx.exact_dist rfl, sx.disc, sc.disc]
  have := sc.up hna hnb hp _ (hinge_key_mono e ha.disc_pos) (fun k => hinge_nonneg _ _) (fun k => hinge_le_one _ _)
  rwa [max_eq_right ht] at this

/-- **C15.** Optimistic truncation: between the untruncated delta minus `t` and the untruncated delta. -/
theorem C15_truncation_optimistic (a b c x : Pmf) (t : ℝ) (ha : a.WF) (hb : b.WF) (hna : a.NonNeg) (hnb : b.NonNeg)
    (hp : a.pessimistic = false) (ht : 0 ≤ t) (hx : composePmfs a b 0 = .ok x) (hc : composePmfs a b t = .ok c) (e : EReal) :
    x.getDeltaForEpsilon e - t ≤ c.getDeltaForEpsilon e ∧ c.getDeltaForEpsilon e ≤ x.getDeltaForEpsilon e := by
  have sc := composePmfs_spec hc ha hb
  have sx := composePmfs_spec hx ha hb
  rw [C11_delta_exact c (sc.wf ha hb), C11_delta_exact x (sx.wf ha hb)]
  unfold Pmf.hs hockeyStick
  rw [sx.exact_inf rfl, sx.exact_dist rfl, sx.disc, sc.disc]
  have := sc.down hna hnb hp _ (hinge_key_mono e ha.disc_pos) (fun k => hinge_nonneg _ _) (fun k => hinge_le_one _ _)
  rw [max_eq_right ht] at this
  constructor <;> linarith [this.1, this.2]

/-- **C15 (mass).** Pessimistic truncation preserves the total mass. -/
theorem C15_truncation_mass (a b c : Pmf) (t : ℝ) (ha : a.WF) (hb : b.WF) (hna : a.NonNeg) (hnb : b.NonNeg)
    (hp : a.pessimistic = true) (hma : totalMass a = 1) (hmb : totalMass b = 1) (hc : composePmfs a b t = .ok c) :
    totalMass c = 1 := by
  have sc := composePmfs_spec hc ha hb
  unfold totalMass at *
  rw [sc.mass hna hnb hp]
  have e1 : finiteMass a.points = 1 - a.infinityMass := by linarith
  have e2 : finiteMass b.points = 1 - b.infinityMass := by linarith
  rw [e1, e2]; ring

example : ∃ c x, composePmfs exDense exSparse (1/2) = .ok c ∧ composePmfs exDense exSparse 0 = .ok x ∧
    x.getDeltaForEpsilon ((0 : ℝ) : EReal) ≤ c.getDeltaForEpsilon ((0 : ℝ) : EReal) ∧ totalMass c = 1 := by
  have hm1 : finiteMass exDense.points = 3/4 := by
    have := exDense_ok.2.2.2; unfold totalMass at this
    have hi : exDense.infinityMass = 1/4 := rfl
    linarith
  have hm2 : finiteMass exSparse.points = 1 := by
    have := exSparse_ok.2.2.2; unfold totalMass at this
    have hi : exSparse.infinityMass = 0 := rfl
    linarith
  obtain ⟨x, hx⟩ := C13_compose_succeeds exDense exSparse 0 exDense_ok.1 exSparse_ok.1 exDense_ok.2.1 exSparse_ok.2.1 rfl rfl
    exDense_ok.2.2.1 exSparse_ok.2.2.1 (Or.inl rfl)
  obtain ⟨c, hc⟩ := C13_compose_succeeds exDense exSparse (1/2) exDense_ok.1 exSparse_ok.1 exDense_ok.2.1 exSparse_ok.2.1 rfl rfl
    exDense_ok.2.2.1 exSparse_ok.2.2.1 (Or.inr (by rw [hm1, hm2]; norm_num))
  exact ⟨c, x, hc, hx, (C15_truncation_pessimistic _ _ _ _ _ exDense_ok.1 exSparse_ok.1 exDense_ok.2.1 exSparse_ok.2.1 rfl
    (by norm_num) hx hc _).1, C15_truncation_mass _ _ _ _ exDense_ok.1 exSparse_ok.1 exDense_ok.2.1 exSparse_ok.2.1 rfl
    exDense_ok.2.2.2 exSparse_ok.2.2.2 hc⟩

/-! ## C16 -/

/-- Composing `n` copies one by one, without truncation. -/
noncomputable def composeCopies (m : Pmf) : ℕ → Except Err Pmf
  | 0 => .ok (.sparse ⟨[(0, 1)], m.disc, 0, m.pessimistic⟩)
  | n + 1 =>
    match composeCopies m n with
    | .error e => .error e
    | .ok r => composePmfs r m 0

lemma composeCopies_spec (m : Pmf) (hm : m.WF) (n : ℕ) (c : Pmf) (h : composeCopies m n = .ok c) :
    c.WF ∧ c.disc = m.disc ∧ c.pessimistic = m.pessimistic ∧ c.infinityMass = 1 - (1 - m.infinityMass) ^ n ∧
      ∀ φ, expect c.points φ = nfold m.points n φ := by
  induction n generalizing c with
  | zero =>
    simp only [composeCopies, Except.ok.injEq] at h
    subst h
    refine ⟨⟨hm.disc_pos, by simp [PyDict.keys]⟩, rfl, rfl, by simp [Pmf.infinityMass], fun φ => ?_⟩
    simp [Pmf.points, expect, nfold]
  | succ n ih =>
    rw [composeCopies] at h
    cases hr : composeCopies m n with
    | error e => rw [hr] at h; simp at h
    | ok r =>
      rw [hr] at h
      simp only at h
      obtain ⟨i1, i2, i3, i4, i5⟩ := ih r hr
      have sp := composePmfs_spec h i1 hm
      refine ⟨sp.wf i1 hm, sp.disc.trans i2, sp.pess.trans i3, ?_, fun φ => ?_⟩
      · rw [sp.exact_inf rfl, i4]; ring
      · rw [sp.exact_dist rfl, nfold_succ']
        unfold convE
        rw [i5]

/-- **C16.** Without truncation `self_compose(n)` describes the `n`-fold sum: for every `eps` it reports the hockey-stick
divergence of `n` independent losses, infinity mass `1-(1-m)^n`, for sparse and dense PMFs and every FFT length. -/
theorem C16_self_compose_exact (nfl : ℕ → ℕ) (hnfl : ∀ k, k ≤ nfl k) (m c : Pmf) (n : ℤ) (hm : m.WF)
    (hi : m.infinityMass ≤ 1) (h : m.selfCompose nfl n 0 = .ok c) :
    0 < n ∧ c.infinityMass = 1 - (1 - m.infinityMass) ^ n.toNat ∧
    (∀ φ, expect c.points φ = nfold m.points n.toNat φ) ∧
    ∀ e : EReal, c.getDeltaForEpsilon e = m.nfoldHs n.toNat e := by
  obtain ⟨hn, sp⟩ := Pmf.selfCompose_spec hnfl hm hi h
  refine ⟨hn, sp.exact_inf rfl, sp.exact_dist rfl, fun e => ?_⟩
  rw [C11_delta_exact c (sp.wf hm)]
  unfold Pmf.hs hockeyStick Pmf.nfoldHs
  rw [sp.exact_inf rfl, sp.exact_dist rfl, sp.disc]

/-- **C16.** `self_compose(n)` and composing `n` copies one by one give the same distribution. -/
theorem C16_self_compose_eq_copies (nfl : ℕ → ℕ) (hnfl : ∀ k, k ≤ nfl k) (m c c' : Pmf) (n : ℤ) (hm : m.WF)
    (hi : m.infinityMass ≤ 1) (h : m.selfCompose nfl n 0 = .ok c) (h' : composeCopies m n.toNat = .ok c') :
    SameDist c c' := by
  obtain ⟨hn, sp⟩ := Pmf.selfCompose_spec hnfl hm hi h
  obtain ⟨i1, i2, i3, i4, i5⟩ := composeCopies_spec m hm n.toNat c' h'
  exact ⟨by rw [sp.disc, i2], by rw [sp.pess, i3], by rw [sp.exact_inf rfl, i4], fun φ => by rw [sp.exact_dist rfl, i5]⟩

/-- **C16 (success).** -/
theorem C16_self_compose_succeeds (nfl : ℕ → ℕ) (m : Pmf) (n : ℤ) (hn : 0 < n) (hw : m.WF) (hnn : m.NonNeg)
    (hm : 0 < finiteMass m.points) (hi : m.infinityMass < 1) : ∃ c, m.selfCompose nfl n 0 = .ok c :=
  Pmf.selfCompose_ok nfl m n hn hw hnn hm hi

/-- **C16.** `self_convolve_dictionary` is the `n`-fold convolution. -/
theorem C16_self_convolve_dictionary (nfl : ℕ → ℕ) (hnfl : ∀ k, k ≤ nfl k) (d r : PyDict) (n : ℕ)
    (h : selfConvolveDictionary nfl d n 0 = .ok r) (h1 : d.keys.Nodup) (n1 : ∀ x ∈ d, 0 ≤ x.2) (φ : ℤ → ℝ) :
    expect r φ = nfold d n φ := selfConvolveDictionary_exact hnfl h h1 n1 φ

example : ∃ c, exDense.selfCompose id 7 0 = .ok c ∧ c.infinityMass = 1 - (3/4 : ℝ) ^ 7 ∧
    c.getDeltaForEpsilon ((0 : ℝ) : EReal) = exDense.nfoldHs 7 ((0 : ℝ) : EReal) := by
  have hm : 0 < finiteMass exDense.points := by
    have := exDense_ok.2.2.2; unfold totalMass at this
    have hi : exDense.infinityMass = 1/4 := rfl
    linarith
  have hi : exDense.infinityMass = 1/4 := rfl
  obtain ⟨c, hc⟩ := C16_self_compose_succeeds id exDense 7 (by norm_num) exDense_ok.1 exDense_ok.2.1 hm (by rw [hi]; norm_num)
  obtain ⟨_, h2, _, h4⟩ := C16_self_compose_exact id (fun k => le_refl _) exDense c 7 exDense_ok.1 (by rw [hi]; norm_num) hc
  refine ⟨c, hc, ?_, h4 _⟩
  have e7 : Int.toNat 7 = 7 := rfl
  rw [h2, hi, e7]; norm_num

/-! ## C17 -/

/-- **C17.** With truncation `t`, `self_compose(n, t)` of a pessimistic PMF reports for every `eps` a delta at least the
exact `n`-fold delta, and at most that plus `2t`. -/
theorem C17_self_compose_truncated (nfl : ℕ → ℕ) (hnfl : ∀ k, k ≤ nfl k) (m c : Pmf) (n : ℤ) (t : ℝ) (hm : m.WF)
    (hnn : m.NonNeg) (hi : m.infinityMass ≤ 1) (hp : m.pessimistic = true) (ht : 0 ≤ t)
    (h : m.selfCompose nfl n t = .ok c) (e : EReal) :
    m.nfoldHs n.toNat e ≤ c.getDeltaForEpsilon e ∧ c.getDeltaForEpsilon e ≤ m.nfoldHs n.toNat e + 2 * t := by
  obtain ⟨hn, sp⟩ := Pmf.selfCompose_spec hnfl hm hi h
  rw [C11_delta_exact c (sp.wf hm)]
  unfold Pmf.hs hockeyStick Pmf.nfoldHs
  rw [sp.disc]
  exact sp.up hnn hp ht _ (hinge_key_mono e hm.disc_pos) (fun k => hinge_nonneg _ _) (fun k => hinge_le_one _ _)

/-- **C17 (window).** Whatever orders are passed to `compute_self_convolve_bounds`, the mass of the exact `n`-fold
convolution outside the returned window is at most `t` (`t/2` on each side). Here `nfold` runs over the entries of the
list, at positions `0 .. len-1`. -/
theorem C17_window_mass (l : List ℝ) (n : ℕ) (t : ℝ) (orders : List ℝ) (hl : ∀ v ∈ l, 0 ≤ v) (hne : l ≠ []) (ht : 0 < t)
    (lower upper : ℤ) (h : computeSelfConvolveBounds l n t orders = .ok (lower, upper)) :
    nfold (Dense.points ⟨1, 0, l, 0, true⟩) n (fun k => if k < lower then 1 else 0) ≤ t / 2 ∧
    nfold (Dense.points ⟨1, 0, l, 0, true⟩) n (fun k => if upper < k then 1 else 0) ≤ t / 2 := by
  unfold computeSelfConvolveBounds at h
  rw [if_neg ht.ne'] at h
  have hw := boundsLoop_window l n t hl ht _ (windowOk_init l n t ht.le hne) h
  rw [nfold_dense, nfold_dense]
  simp only [zero_mul, zero_add]
  exact ⟨hw.2.2.1, hw.2.2.2⟩

/-- **C17 (success).** -/
theorem C17_dense_succeeds (nfl : ℕ → ℕ) (d : Dense) (n : ℤ) (t : ℝ) (hn : 0 < n) (hnn : (Pmf.dense d).NonNeg)
    (hm : 0 < finiteMass d.points) (hi : d.infinityMass < 1) (ht : 0 ≤ t) : ∃ c, d.selfCompose nfl n t = .ok c :=
  Dense.selfCompose_ok nfl d n t hn hnn hm hi ht

/-- **C17 (disagreement).** An *optimistic* dense PMF self-composed with truncation may report a delta above the exact
one: the truncated mass is added to the infinity mass whatever the estimate type. Here: a single loss 0 of mass 1, any
`0 < t`: the exact 2-fold delta at 0 is 0, the reported one at least `t`. -/
theorem C17_optimistic_not_lower_bound (nfl : ℕ → ℕ) (hnfl : ∀ k, k ≤ nfl k) (t : ℝ) (ht : 0 < t) :
    ∃ m : Pmf, m.WF ∧ m.NonNeg ∧ totalMass m = 1 ∧ m.pessimistic = false ∧ m.nfoldHs 2 ((0 : ℝ) : EReal) = 0 ∧
      ∃ c, m.selfCompose nfl 2 t = .ok c ∧ t ≤ c.getDeltaForEpsilon ((0 : ℝ) : EReal) := by
  have hw : (Pmf.dense ⟨1, 0, [1], 0, false⟩).WF := by norm_num [Pmf.WF]
  have hnn : (Pmf.dense ⟨1, 0, [1], 0, false⟩).NonNeg :=
    ⟨by norm_num [Pmf.infinityMass], (dense_nonneg_iff _).2 (by intro v hv; simp at hv; rw [hv]; norm_num)⟩
  have hfm : finiteMass (Dense.points ⟨1, 0, [1], 0, false⟩) = 1 := by
    unfold finiteMass; rw [expect_dense_wsum]; norm_num [wsum]
  refine ⟨.dense ⟨1, 0, [1], 0, false⟩, hw, hnn, ?_, rfl, ?_, ?_⟩
  · unfold totalMass; simp only [Pmf.points, Pmf.infinityMass]; rw [hfm]; norm_num
  · unfold Pmf.nfoldHs
    simp only [Pmf.points, Pmf.infinityMass, Pmf.disc, nfold]
    rw [expect_dense_wsum]
    simp only [wsum]
    rw [expect_dense_wsum]
    simp only [wsum, hinge_coe]
    norm_num
  · obtain ⟨c, hc⟩ := C17_dense_succeeds nfl ⟨1, 0, [1], 0, false⟩ 2 t (by norm_num) hnn (by rw [hfm]; norm_num)
      (by norm_num) ht.le
    refine ⟨.dense c, by simp only [Pmf.selfCompose]; rw [hc], ?_⟩
    obtain ⟨_, _, _, sp, _, hinf⟩ := Dense.selfCompose_spec hnfl hc
    rw [C11_delta_exact _ (sp.wf hw)]
    unfold Pmf.hs hockeyStick
    have h0 := expect_nonneg (sp.nonneg hnn) (φ := fun k => hinge ((0 : ℝ) : EReal) (k * (Pmf.dense c).disc))
      (fun x _ => hinge_nonneg _ _)
    have : (Pmf.dense c).infinityMass = t := by
      show c.infinityMass = t
      rw [hinf]; norm_num
    linarith

example : ∃ c, exDense.selfCompose id 5 (1/100) = .ok c ∧
    exDense.nfoldHs 5 ((1 : ℝ) : EReal) ≤ c.getDeltaForEpsilon ((1 : ℝ) : EReal) := by
  have hi : exDense.infinityMass = 1/4 := rfl
  have hm : 0 < finiteMass exDense.points := by
    have := exDense_ok.2.2.2; unfold totalMass at this; linarith
  obtain ⟨c, hc⟩ := C17_dense_succeeds id ⟨1, 0, [1/4, 1/4, 1/4], 1/4, true⟩ 5 (1/100) (by norm_num) exDense_ok.2.1 hm
    (by norm_num) (by norm_num)
  have hc' : exDense.selfCompose id 5 (1/100) = .ok (.dense c) := by
    simp only [exDense, Pmf.selfCompose]; rw [hc]
  exact ⟨.dense c, hc', (C17_self_compose_truncated id (fun k => le_refl _) _ _ 5 _ exDense_ok.1 exDense_ok.2.1
    (by rw [hi]; norm_num) rfl (by norm_num) hc' _).1⟩

/-! ## C18 -/

/-- **C18.** `dictionary_to_list` represents a dictionary exactly: entry `i` is the value at key `offset + i`, the first
and last entries belong to keys of the dictionary, and every key is covered. It fails only on the empty dictionary. -/
theorem C18_dictionary_to_list (d : PyDict) :
    (dictionaryToList d = .error .valueError ↔ d = []) ∧
    ∀ off l, dictionaryToList d = .ok (off, l) → off ∈ d.keys ∧ off + l.length - 1 ∈ d.keys ∧
      ∀ k : ℤ, d.get k = if off ≤ k ∧ k < off + l.length then l.getD (k - off).toNat 0 else 0 := by
  refine ⟨⟨fun h => ?_, fun h => by subst h; rfl⟩, fun off l h => ?_⟩
  · by_contra hne
    obtain ⟨off, l, hl⟩ := dictionaryToList_ok hne
    rw [hl] at h; simp at h
  · obtain ⟨_, h2, h3, h4, h5, h6⟩ := dictionaryToList_spec h
    refine ⟨h2, h3, fun k => ?_⟩
    split_ifs with hk
    · rw [h6 _ (by omega)]
      congr 1; omega
    · apply PyDict.get_eq_zero
      intro hmem
      exact hk (h5 k hmem)

/-- **C18 (round trip).** Converting a dictionary of non-negative masses to a list and back (no truncation) gives the
same value at every key, and only positive values are stored. -/
theorem C18_roundtrip (d : PyDict) (hn : ∀ x ∈ d, 0 ≤ x.2) (off : ℤ) (l : List ℝ)
    (h : dictionaryToList d = .ok (off, l)) :
    (∀ k : ℤ, (listToDictionary l off 0).get k = d.get k) ∧ (listToDictionary l off 0).keys.Nodup ∧
    ∀ x ∈ listToDictionary l off 0, 0 < x.2 := by
  have hl := dictionaryToList_nonneg h hn
  refine ⟨fun k => ?_, collectPositive_nodup _ _ _ _ _, collectPositive_pos _ _ _ _ _⟩
  rw [((C18_dictionary_to_list d).2 off l h).2.2 k]
  by_cases hk : off ≤ k
  · have e : k = off + ((k - off).toNat : ℕ) := by omega
    have := (listToDictionary_zero l hl off).1 (k - off).toNat
    rw [← e] at this
    rw [this]
    split_ifs with hc
    · rfl
    · rw [List.getD_eq_default]; omega
  · rw [listToDictionary_get_outside _ _ _ _ (by omega), if_neg (by omega)]

/-- **C18 (list).** Converting a list of non-negative masses to a dictionary keeps every entry. -/
theorem C18_list_to_dictionary (l : List ℝ) (hl : ∀ v ∈ l, 0 ≤ v) (off k : ℤ) :
    (listToDictionary l off 0).get k = if off ≤ k then l.getD (k - off).toNat 0 else 0 := by
  split_ifs with hk
  · have e : k = off + ((k - off).toNat : ℕ) := by omega
    have := (listToDictionary_zero l hl off).1 (k - off).toNat
    rw [← e] at this; exact this
  · exact listToDictionary_get_outside _ _ _ _ (by omega)

/-- **C18 (truncation).** With truncation `t` an initial and a final segment are dropped, of mass at most `t/2` each; all
other entries are kept. -/
theorem C18_list_to_dictionary_truncation (l : List ℝ) (hl : ∀ v ∈ l, 0 ≤ v) (off : ℤ) (t : ℝ) (ht : 0 ≤ t) :
    ∃ lo hi : ℕ, (l.take lo).sum ≤ t / 2 ∧ (l.drop hi).sum ≤ t / 2 ∧
      ∀ j : ℕ, (listToDictionary l off t).get (off + j) = if lo ≤ j ∧ j < hi then l.getD j 0 else 0 := by
  obtain ⟨lo, hi, _, _, h3, h4, h5, _⟩ := listToDictionary_spec l hl off t ht
  exact ⟨lo, hi, h3, h4, h5⟩

example : dictionaryToList [(5, 1/2), (-3, 1/2)] = .ok (-3, [1/2, 0, 0, 0, 0, 0, 0, 0, 1/2]) := by
  simp [dictionaryToList, PyDict.keys, minKey, maxKey, pyRange, List.range_succ, PyDict.get]

end Verif.Props
