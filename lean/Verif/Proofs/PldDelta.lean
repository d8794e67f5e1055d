import Verif.Proofs.LossDist
import Mathlib.Data.List.Sort
import Mathlib.Data.List.Chain

/-! Lemmas about the delta computations of `pld_pmf.py`. -/

namespace Verif
open Spec

/-- `Σ p * hinge eps l` over (loss, prob) pairs. -/
noncomputable def hsum (eps : EReal) (lps : List (ℝ × ℝ)) : ℝ := (lps.map fun x => x.2 * hinge eps x.1).sum

@[simp] lemma hsum_nil (eps : EReal) : hsum eps [] = 0 := rfl
@[simp] lemma hsum_cons (eps : EReal) (l p : ℝ) (r : List (ℝ × ℝ)) :
    hsum eps ((l, p) :: r) = p * hinge eps l + hsum eps r := by simp [hsum]

lemma hsum_perm {a b : List (ℝ × ℝ)} (h : a.Perm b) (eps : EReal) : hsum eps a = hsum eps b := by
  unfold hsum; exact (h.map _).sum_eq

lemma getDelta_eq (inf : ℝ) (losses probs : List ℝ) (eps : EReal) :
    PldPmf.getDelta inf losses probs eps = inf + hsum eps (losses.zip probs) := by
  unfold PldPmf.getDelta
  congr 1
  induction losses.zip probs with
  | nil => simp
  | cons x r ih =>
    obtain ⟨l, p⟩ := x
    rw [hsum_cons, ← ih]
    by_cases h : eps < (l : EReal)
    · rw [List.filter_cons_of_pos (by simpa using h)]
      simp only [List.map_cons, List.sum_cons, hinge_of_lt h]
      ring
    · rw [List.filter_cons_of_neg (by simpa using h), hinge_of_le (not_lt.1 h)]
      ring

lemma hinge_split {e : EReal} {l : ℝ} (he : e ≠ ⊤) (h : e < (l : EReal)) :
    hinge e l = 1 - pyExp e * Real.exp (-l) := by
  induction e using EReal.rec with
  | top => exact absurd rfl he
  | bot => simp [pyExp_bot]
  | coe y => rw [hinge_of_lt h, ← EReal.coe_sub, pyExp_coe, pyExp_coe, ← Real.exp_add, ← sub_eq_add_neg]

lemma hsum_zero_of_le {e : EReal} {lps : List (ℝ × ℝ)} (h : ∀ x ∈ lps, (x.1 : EReal) ≤ e) : hsum e lps = 0 := by
  induction lps with
  | nil => rfl
  | cons x r ih =>
    obtain ⟨l, p⟩ := x
    rw [hsum_cons, ih (fun x hx => h x (by simp [hx])), hinge_of_le (h (l, p) (by simp))]
    ring

lemma sweep_eq (inf : ℝ) (lps : List (ℝ × ℝ)) (es : List EReal) (U L : ℝ) (done : EReal → ℝ)
    (hl : lps.Pairwise (fun a b => b.1 ≤ a.1)) (hes : es.Pairwise (fun a b => b ≤ a))
    (hd : ∀ e ∈ es, e ≠ ⊤ → done e = (U - inf) - pyExp e * L) (htop : done ⊤ = 0) :
    PldPmf.sweep inf lps es U L = es.map fun e => inf + done e + hsum e lps := by
  induction lps, es, U, L using PldPmf.sweep.induct generalizing done with
  | case1 => simp [PldPmf.sweep]
  | case2 lps es U L ih =>
    rw [PldPmf.sweep.eq_def]
    simp only [if_true]
    rw [ih done hl hes.of_cons (fun e he => hd e (by simp [he])) htop]
    have : hsum ⊤ lps = 0 := hsum_zero_of_le (fun x _ => le_top)
    simp [this, htop]
  | case3 e es U L he ih =>
    rw [PldPmf.sweep, if_neg he]
    rw [ih done hl hes.of_cons (fun e he => hd e (by simp [he])) htop]
    simp only [List.map_cons, hsum_nil, hd e (by simp) he]
    congr 1; ring
  | case4 e es U L he l p rest hle ih =>
    rw [PldPmf.sweep, if_neg he]
    simp only [if_pos hle]
    rw [ih done hl hes.of_cons (fun e he => hd e (by simp [he])) htop]
    have h0 : hsum e ((l, p) :: rest) = 0 := by
      apply hsum_zero_of_le
      intro x hx
      rcases List.mem_cons.1 hx with rfl | hx
      · exact hle
      · have := (List.pairwise_cons.1 hl).1 x hx
        exact le_trans (by exact_mod_cast this) hle
    simp only [List.map_cons, h0, hd e (by simp) he]
    congr 1; ring
  | case5 e es U L he l p rest hle ih =>
    rw [PldPmf.sweep, if_neg he]
    simp only [if_neg hle]
    have hlt : ∀ e' ∈ e :: es, e' < (l : EReal) := by
      intro e' he'
      rcases List.mem_cons.1 he' with rfl | he'
      · exact not_le.1 hle
      · exact lt_of_le_of_lt ((List.pairwise_cons.1 hes).1 e' he') (not_le.1 hle)
    rw [ih (fun e => done e + p * hinge e l) hl.of_cons hes ?_ (by simp [htop])]
    · apply List.map_congr_left
      intro e' _
      rw [hsum_cons]; ring
    · intro e' he' htop'
      rw [hd e' he' htop', hinge_split htop' (hlt e' he')]
      ring

lemma getDeltaVectorized_eq (inf : ℝ) (losses probs : List ℝ) (es : List EReal)
    (hl : losses.Pairwise (· ≤ ·)) (hes : es.Pairwise (· ≤ ·)) :
    PldPmf.getDeltaVectorized inf losses probs es = .ok (es.map fun e => PldPmf.getDelta inf losses probs e) := by
  unfold PldPmf.getDeltaVectorized
  rw [if_neg (not_not.2 hes.isChain)]
  congr 1
  rw [sweep_eq inf _ _ _ _ (fun _ => 0)]
  · rw [← List.map_reverse, List.reverse_reverse]
    apply List.map_congr_left
    intro e _
    rw [getDelta_eq, hsum_perm (List.reverse_perm _)]
    ring
  · rw [List.pairwise_reverse]
    have : (losses.zip probs).Pairwise (fun a b => a.1 ≤ b.1) := by
      have h2 : ((losses.zip probs).map Prod.fst).Pairwise (· ≤ ·) := by
        refine hl.sublist ?_
        clear hl
        induction losses generalizing probs with
        | nil => simp
        | cons a as ih =>
          cases probs with
          | nil => simp
          | cons b bs => simpa using ih bs
      rwa [List.pairwise_map] at h2
    exact this
  · rw [List.pairwise_reverse]; exact hes
  · intro e _ _; simp
  · rfl

end Verif
