import Verif.Model.PldLibrary

/-! # Noise of infinite scale: the computations end in NaN -/

namespace Verif
namespace InfiniteNoise
open PyFloat PldPmf Mech
open Spec (Adj)

lemma add_nan (a : PyFloat) : add a nan = nan := by rcases a with _ | x <;> simp [add]
lemma nan_add (a : PyFloat) : add nan a = nan := by rcases a with _ | x <;> simp [add]
lemma mul_nan (a : PyFloat) : mul a nan = nan := by rcases a with _ | x <;> simp [mul]
lemma nan_mul (a : PyFloat) : mul nan a = nan := by rcases a with _ | x <;> simp [mul]
lemma nan_div (a : PyFloat) : div nan a = nan := by rcases a with _ | x <;> simp [div]
lemma nan_sub (a : PyFloat) : sub nan a = nan := nan_add _
lemma sub_nan (a : PyFloat) : sub a nan = nan := by simp [sub, neg, add_nan]

/-- A float that is an infinity or NaN. -/
def NonFinite (a : PyFloat) : Prop := a = nan ∨ a = num ⊤ ∨ a = num ⊥

lemma ppf_nonFinite (x : ℝ) : NonFinite (ppf x) := by
  unfold ppf NonFinite
  rcases lt_trichotomy x 0 with h | h | h
  · have hx : (x : EReal) ≠ 0 := by exact_mod_cast h.ne
    have : mul (num ⊤) (num (x : ℝ)) = num ⊥ := by
      simp [mul, isInf, hx, EReal.top_mul_coe_of_neg h]
    rw [this]; simp [add]
  · subst h
    left; simp [mul, isInf, nan_add]
  · have hx : (x : EReal) ≠ 0 := by exact_mod_cast h.ne'
    have : mul (num ⊤) (num (x : ℝ)) = num ⊤ := by
      simp [mul, isInf, hx, EReal.top_mul_coe_of_pos h]
    rw [this]; simp [add]

lemma neg_nonFinite {a : PyFloat} (h : NonFinite a) : NonFinite (neg a) := by
  rcases h with rfl | rfl | rfl <;> simp [NonFinite, neg]

lemma add_real_nonFinite {a : PyFloat} (h : NonFinite a) (c : ℝ) : NonFinite (add a (num (c : ℝ))) := by
  rcases h with rfl | rfl | rfl <;> simp [NonFinite, add]

lemma real_add_nonFinite {a : PyFloat} (h : NonFinite a) (c : ℝ) : NonFinite (add (num (c : ℝ)) a) := by
  rcases h with rfl | rfl | rfl <;> simp [NonFinite, add]

lemma gaussianLossNo_nan (adj : Adj) {x : PyFloat} (h : NonFinite x) : gaussianLossNo adj x = nan := by
  have key : ∀ c : ℝ, div (mul (num 1) (sub (num (c : ℝ)) x)) (mul (num ⊤) (num ⊤)) = nan := by
    intro c
    have h1 : NonFinite (sub (num (c : ℝ)) x) := real_add_nonFinite (neg_nonFinite h) c
    have hv : mul (num ⊤) (num ⊤) = num ⊤ := by simp [mul, isInf]
    rw [hv]
    rcases h1 with h1 | h1 | h1 <;> rw [h1] <;> simp [mul, div, isInf]
  cases adj <;> exact key _

lemma gaussianLoss_nan (q : ℝ) (adj : Adj) {x : PyFloat} (h : NonFinite x) : gaussianLoss q adj x = nan := by
  unfold gaussianLoss
  rw [gaussianLossNo_nan adj h]
  cases adj <;> simp [neg, logAExp]

lemma gaussianBounds_nan (x q : ℝ) (adj : Adj) : gaussianBounds x q adj = (nan, nan) := by
  have h := ppf_nonFinite x
  unfold gaussianBounds
  have h1 : (num 1 : PyFloat) = num ((1 : ℝ) : EReal) := rfl
  have h2 : NonFinite (sub (ppf x) (num 1)) := add_real_nonFinite h (-1)
  cases adj
  · simp only [h1, gaussianLoss_nan _ _ h, gaussianLoss_nan _ _ (add_real_nonFinite (neg_nonFinite h) 1)]
  · simp only [gaussianLoss_nan _ _ h2, gaussianLoss_nan _ _ (neg_nonFinite h)]

lemma gaussianGrid_error (x disc q : ℝ) : gaussianGrid x disc q = .error .valueError := by
  unfold gaussianGrid grid
  rw [gaussianBounds_nan]
  simp [nan_div, ceil, bind, Except.bind]

/-! ### Laplace -/

lemma laplaceInvNo_nan (adj : Adj) : laplaceInvNo adj (num 0) = nan := by
  have h : mul (num 0) (num ⊤) = nan := by simp [mul, isInf]
  unfold laplaceInvNo
  rw [h]
  cases adj <;> simp [PyFloat.lt, PyFloat.le, sub_nan, mul_nan]

lemma laplaceCdf_nan : laplaceCdf nan = nan := by simp [laplaceCdf, nan_sub, nan_div]

lemma laplaceDelta_nan (q : ℝ) (adj : Adj) : laplaceDelta q adj = nan := by
  unfold laplaceDelta
  simp only [laplaceInvNo_nan]
  cases adj <;> simp [laplaceCdf_nan, nan_add, nan_sub, clip01, mul_nan, add_nan]

lemma laplacePmf_nan {q : ℝ} (h0 : 0 < q) (h1 : q ≤ 1) (adj : Adj) : laplacePmf q adj = .ok ⟨[(0, nan)], nan⟩ := by
  unfold laplacePmf
  rw [laplaceDelta_nan]
  have : ¬(q ≤ 0 ∨ q > 1) := by push Not; exact ⟨h0, h1⟩
  simp [this, PyFloat.lt, sub_nan]

lemma findPrefix_nan (t : ℝ) : ∀ (s : PyFloat) (l : List PyFloat), (∀ v ∈ l, v = nan) → findPrefix t s l = l.length
  | _, [], _ => rfl
  | s, v :: vs, h => by
    have hv : v = nan := h v (by simp)
    subst hv
    simp [findPrefix, add_nan, PyFloat.lt, findPrefix_nan t nan vs fun w hw => h w (by simp [hw])]

lemma truncateTails_nan (l : List PyFloat) (h : ∀ v ∈ l, v = nan) (t : ℝ) : truncateTails l t = .error .indexError := by
  unfold truncateTails
  have h1 := findPrefix_nan (t / 2) (num 0) l h
  have : (l.take (max (l.length - findPrefix (t / 2) (num 0) l.reverse) (findPrefix (t / 2) (num 0) l + 1))).drop
      (findPrefix (t / 2) (num 0) l) = [] := by
    rw [List.drop_eq_nil_iff, h1]
    simp
  simp only [this]

lemma composeWith_nan (p : Pmf) (t : ℝ) : composeWith p nan t = .error .indexError := by
  unfold composeWith
  apply truncateTails_nan
  simp [mul_nan, add_nan]

lemma composeLaplace_error (p : Pmf) {q : ℝ} (h0 : 0 < q) (h1 : q ≤ 1) (t : ℝ) (count : ℤ) :
    composeLaplace p q t count = if count ≤ 0 then .error .valueError else .error .indexError := by
  have hs : count ≤ 0 ∨ selfCompose nan count t = .ok nan ∨ selfCompose nan count t = .error .indexError := by
    unfold selfCompose
    by_cases hc : count ≤ 0
    · exact Or.inl hc
    by_cases hc1 : count = 1
    · simp [hc1]
    · right; right
      rw [if_neg hc, if_neg hc1]
      dsimp only
      rw [truncateTails_nan _ (by simp [mul_nan, add_nan])]
      rfl
  unfold composeLaplace
  rw [laplacePmf_nan h0 h1 .remove, laplacePmf_nan h0 h1 .add]
  by_cases hc : count ≤ 0
  · by_cases hq : q = 1 <;> simp [bind, Except.bind, pure, Except.pure, hq, selfCompose, hc]
  · rcases hs with h | h | h
    · exact absurd h hc
    · by_cases hq : q = 1 <;> simp [bind, Except.bind, pure, Except.pure, hq, h, hc, composeWith_nan]
    · by_cases hq : q = 1 <;> simp [bind, Except.bind, pure, Except.pure, hq, h, hc]

end InfiniteNoise

namespace PldLibrary

lemma fromGaussian_real {ppf : ℝ → ℝ → ℝ} {disc : ℝ} {z q : PyNum} {c : ℤ} {p : Pld} (h : fromGaussian ppf disc z c q = .ok p) :
    z.real? ≠ none := by
  intro hz
  unfold fromGaussian at h
  rw [hz] at h
  cases hq : q.real? with
  | none => simp [hq] at h
  | some x =>
    simp only [hq, InfiniteNoise.gaussianGrid_error, bind, Except.bind] at h
    by_cases h0 : c < 0
    · simp [h0] at h
    · by_cases h1 : c = 0 <;> simp [h0, h1] at h

lemma fromLaplace_real {disc : ℝ} {z q : PyNum} {p : Pld} (h : fromLaplace disc z q = .ok p) : z.real? ≠ none := by
  intro hz
  unfold fromLaplace at h
  rw [hz] at h
  cases hq : q.real? with
  | none => simp [hq] at h
  | some x =>
    simp only [hq] at h
    by_cases h0 : x ≤ 0 ∨ x > 1 <;> simp [h0] at h

end PldLibrary
end Verif
