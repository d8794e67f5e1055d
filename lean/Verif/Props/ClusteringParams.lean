import Verif.Proofs.Validation
import Verif.Model.Clustering

/-!
# C57, C93: the parameters of the clustering tree

`mkTreeParam` and `defaultTreeParam` are `TreeParam(...)` and `default_tree_param` (`clustering_params.py`, `default_clustering_params.py`).
-/

namespace Verif.Props
open Verif Spec Validation Clustering

/-- **C57 (`PrivacyBudgetSplit`)**: the two fractions are accepted exactly if their sum is at most one. -/
theorem C57_budget_split (fracSum fracGroupCount : ℝ) : Accepts (budgetSplit fracSum fracGroupCount) (fracSum + fracGroupCount ≤ 1) := by
  exact Accepts.congr (Accepts.ite (Accepts.ok ())) (by push Not; tauto)

/-- **C57 (`TreeParam` of the clustering)**: exactly the thresholds with at least one point per node, and at least as many per branching node, are
accepted, and kept as they are. -/
theorem C57_clustering_tree_param (minBranching minNode maxDepth : ℤ) :
    Accepts (mkTreeParam minBranching minNode maxDepth) (1 ≤ minNode ∧ minNode ≤ minBranching) ∧
    ∀ t, mkTreeParam minBranching minNode maxDepth = .ok t → t.minBranching = minBranching ∧ t.minNode = minNode ∧ t.maxDepth = maxDepth := by
  refine ⟨Accepts.congr (Accepts.ite (Accepts.ite (Accepts.ok _))) (by push Not; tauto), fun t h => ?_⟩
  unfold mkTreeParam at h
  split_ifs at h
  cases h
  exact ⟨rfl, rfl, rfl⟩

/-- A number of points that leaves, for `k` clusters, at least `2 * k` nodes of so many points, and that is not larger than needed for noise of a tenth
of the radius (`sigma` is the standard deviation of the sum of points, `radius` its sensitivity). -/
def Suitable (k : ℤ) (dim : ℕ) (sigma radius : ℝ) (count m : ℤ) : Prop :=
  2 * k * m ≤ count ∧ (m : ℝ) * (radius / 10) ≤ Real.sqrt dim * sigma

/-- **C93.** `default_tree_param` raises exactly for `k = 0`. For at least one cluster it returns the private count of the points and the given depth, and
as smallest number of points per node the largest suitable one, or one if there is none; branching nodes need three times as many. -/
theorem C93_default_tree_param (k : ℤ) (numPoints dim : ℕ) {sigma radius : ℝ} {laplaceParam : PyNum} {pc : PCalc}
    (hpc : mkPCalc sigma radius laplaceParam = .ok pc) (maxDepth noise : ℤ) :
    ((∃ e, defaultTreeParam k numPoints dim pc maxDepth noise = .error e) ↔ k = 0) ∧
    ∀ t c, 1 ≤ k → defaultTreeParam k numPoints dim pc maxDepth noise = .ok (t, c) →
      c = getPrivateCount numPoints laplaceParam noise ∧ t.maxDepth = maxDepth ∧ t.minBranching = 3 * t.minNode ∧ 1 ≤ t.minNode ∧
      (1 < t.minNode → Suitable k dim sigma radius c t.minNode) ∧ ∀ m, Suitable k dim sigma radius c m → m ≤ t.minNode := by
  unfold mkPCalc at hpc
  split_ifs at hpc with c1 c2 c3
  rw [Except.ok.injEq] at hpc
  subst hpc
  push Not at c1 c2
  have hmk : ∀ m : ℤ, mkTreeParam (3 * max 1 m) (max 1 m) maxDepth = .ok ⟨3 * max 1 m, max 1 m, maxDepth⟩ := by
    intro m
    unfold mkTreeParam
    rw [if_neg (by omega), if_neg (by omega)]
  unfold defaultTreeParam
  simp only [hmk]
  refine ⟨?_, fun t c hk h => ?_⟩
  · by_cases hk : k = 0
    · simp [hk]
    · simp [hk]
  · rw [if_neg (by omega)] at h
    simp only [Except.ok.injEq, Prod.mk.injEq] at h
    obtain ⟨rfl, rfl⟩ := h
    set x := 10 * Real.sqrt dim * sigma / radius with hx
    have hx0 : 0 ≤ x := by rw [hx]; positivity
    have hxm : ∀ m : ℤ, m ≤ pyInt x ↔ (m : ℝ) * (radius / 10) ≤ Real.sqrt dim * sigma := by
      intro m
      unfold pyInt
      rw [if_pos hx0, Int.le_floor, hx, le_div_iff₀ c2]
      constructor <;> intro h <;> linarith
    set c := getPrivateCount numPoints laplaceParam noise
    have hdiv : ∀ m : ℤ, m ≤ Int.fdiv c (2 * k) ↔ 2 * k * m ≤ c := by
      intro m
      rw [Int.fdiv_eq_ediv_of_nonneg _ (by omega), Int.le_ediv_iff_mul_le (by omega), mul_comm]
    have hsu : ∀ m : ℤ, m ≤ min (pyInt x) (Int.fdiv c (2 * k)) ↔ Suitable k dim sigma radius c m := by
      intro m
      rw [le_min_iff, hxm, hdiv, Suitable, and_comm]
    refine ⟨rfl, rfl, rfl, le_max_left _ _, fun h1 => ?_, fun m hm => ?_⟩
    · rw [← hsu]
      simp only at h1 ⊢
      omega
    · exact ((hsu m).2 hm).trans (le_max_right _ _)

/-- A case with a threshold above one: 100 points in one dimension, one cluster, noise of the size of the radius. -/
example : ∃ pc t c, mkPCalc 1 1 (.float 3) = .ok pc ∧ defaultTreeParam 1 100 1 pc 20 0 = .ok (t, c) ∧ t.minNode = 10 ∧ t.minBranching = 30 ∧ c = 100 := by
  have hpc : mkPCalc 1 1 (.float 3) = .ok ⟨1, 1, .float 3⟩ := by
    unfold mkPCalc
    rw [if_neg (by norm_num), if_neg (by norm_num), if_neg (by
      simp only [PyNum.val, not_le]
      exact_mod_cast (by norm_num : (0 : ℝ) < 3))]
  obtain ⟨h, h'⟩ := C93_default_tree_param 1 100 1 hpc 20 0
  cases hd : defaultTreeParam 1 100 1 ⟨1, 1, .float 3⟩ 20 0 with
  | error e => exact absurd (h.1 ⟨e, hd⟩) (by norm_num)
  | ok r =>
    obtain ⟨t, c⟩ := r
    obtain ⟨hc, -, hb, -, hs, hm⟩ := h' t c le_rfl hd
    have hc' : c = 100 := by rw [hc, getPrivateCount]; simp [PyNum.val]
    have h10 := hm 10 (by rw [Suitable, hc']; norm_num)
    have hle := (hs (by omega)).2
    have : (t.minNode : ℝ) ≤ 10 := by simp at hle; linarith
    have : t.minNode ≤ 10 := by exact_mod_cast this
    exact ⟨_, t, c, hpc, hd, by omega, by omega, hc'⟩

end Verif.Props
