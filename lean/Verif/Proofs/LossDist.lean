import Verif.Spec.LossDist
import Mathlib.Algebra.BigOperators.Group.List.Basic
import Mathlib.Algebra.Order.BigOperators.Group.List
import Mathlib.Algebra.BigOperators.Ring.List
import Mathlib.Tactic.Ring
import Mathlib.Tactic.Linarith
import Mathlib.Tactic.Positivity

namespace Verif.Spec

@[simp] lemma expect_nil (φ : ℤ → ℝ) : expect [] φ = 0 := rfl

@[simp] lemma expect_cons (k : ℤ) (v : ℝ) (l : List (ℤ × ℝ)) (φ : ℤ → ℝ) :
    expect ((k, v) :: l) φ = v * φ k + expect l φ := by simp [expect]

lemma expect_append (a b : List (ℤ × ℝ)) (φ : ℤ → ℝ) : expect (a ++ b) φ = expect a φ + expect b φ := by
  simp [expect]

lemma expect_perm {a b : List (ℤ × ℝ)} (h : a.Perm b) (φ : ℤ → ℝ) : expect a φ = expect b φ := by
  unfold expect; exact (h.map _).sum_eq

lemma expect_add (a : List (ℤ × ℝ)) (φ ψ : ℤ → ℝ) : expect a (fun k => φ k + ψ k) = expect a φ + expect a ψ := by
  induction a with
  | nil => simp
  | cons x l ih => obtain ⟨k, v⟩ := x; simp only [expect_cons, ih]; ring

lemma expect_sub (a : List (ℤ × ℝ)) (φ ψ : ℤ → ℝ) : expect a (fun k => φ k - ψ k) = expect a φ - expect a ψ := by
  induction a with
  | nil => simp
  | cons x l ih => obtain ⟨k, v⟩ := x; simp only [expect_cons, ih]; ring

lemma expect_mul_left (a : List (ℤ × ℝ)) (c : ℝ) (φ : ℤ → ℝ) : expect a (fun k => c * φ k) = c * expect a φ := by
  induction a with
  | nil => simp
  | cons x l ih => obtain ⟨k, v⟩ := x; simp only [expect_cons, ih]; ring

lemma expect_mul_right (a : List (ℤ × ℝ)) (c : ℝ) (φ : ℤ → ℝ) : expect a (fun k => φ k * c) = expect a φ * c := by
  induction a with
  | nil => simp
  | cons x l ih => obtain ⟨k, v⟩ := x; simp only [expect_cons, ih]; ring

lemma expect_const (a : List (ℤ × ℝ)) (c : ℝ) : expect a (fun _ => c) = finiteMass a * c := by
  have := expect_mul_right a c (fun _ => 1)
  simpa [finiteMass] using this

@[simp] lemma expect_zero (a : List (ℤ × ℝ)) : expect a (fun _ => 0) = 0 := by
  rw [expect_const, mul_zero]

lemma expect_comm (a b : List (ℤ × ℝ)) (f : ℤ → ℤ → ℝ) :
    expect a (fun i => expect b (fun j => f i j)) = expect b (fun j => expect a (fun i => f i j)) := by
  induction a with
  | nil => simp
  | cons x l ih =>
    obtain ⟨k, v⟩ := x
    simp only [expect_cons, ih, expect_add, expect_mul_left]

lemma expect_mono {a : List (ℤ × ℝ)} (ha : ∀ x ∈ a, 0 ≤ x.2) {φ ψ : ℤ → ℝ} (h : ∀ x ∈ a, φ x.1 ≤ ψ x.1) :
    expect a φ ≤ expect a ψ := by
  induction a with
  | nil => simp
  | cons x l ih =>
    obtain ⟨k, v⟩ := x
    simp only [expect_cons]
    have h1 := h (k, v) (by simp)
    have h2 := ha (k, v) (by simp)
    have h3 := ih (fun x hx => ha x (by simp [hx])) (fun x hx => h x (by simp [hx]))
    have := mul_le_mul_of_nonneg_left h1 h2
    simp only at this
    linarith

lemma expect_nonneg {a : List (ℤ × ℝ)} (ha : ∀ x ∈ a, 0 ≤ x.2) {φ : ℤ → ℝ} (h : ∀ x ∈ a, 0 ≤ φ x.1) :
    0 ≤ expect a φ := by
  have := expect_mono ha (φ := fun _ => 0) (ψ := φ) h
  simpa using this

lemma expect_congr {a : List (ℤ × ℝ)} {φ ψ : ℤ → ℝ} (h : ∀ x ∈ a, φ x.1 = ψ x.1) : expect a φ = expect a ψ := by
  unfold expect
  congr 1
  apply List.map_congr_left
  intro x hx; rw [h x hx]

lemma finiteMass_nonneg {a : List (ℤ × ℝ)} (ha : ∀ x ∈ a, 0 ≤ x.2) : 0 ≤ finiteMass a :=
  expect_nonneg ha (fun _ _ => zero_le_one)

lemma hinge_coe (eps loss : ℝ) : hinge (eps : EReal) loss = max 0 (1 - Real.exp (eps - loss)) := by
  simp [hinge]

@[simp] lemma hinge_top (loss : ℝ) : hinge ⊤ loss = 0 := by simp [hinge]

@[simp] lemma hinge_bot (loss : ℝ) : hinge ⊥ loss = 1 := by simp [hinge]

lemma hinge_nonneg (eps : EReal) (loss : ℝ) : 0 ≤ hinge eps loss := by
  unfold hinge; split_ifs <;> simp

lemma hinge_le_one (eps : EReal) (loss : ℝ) : hinge eps loss ≤ 1 := by
  unfold hinge; split_ifs
  · exact zero_le_one
  · exact le_refl _
  · apply max_le zero_le_one
    have := Real.exp_pos (eps.toReal - loss)
    linarith

lemma hinge_antitone {e1 e2 : EReal} (h : e1 ≤ e2) (loss : ℝ) : hinge e2 loss ≤ hinge e1 loss := by
  induction e2 using EReal.rec with
  | top => simpa using hinge_nonneg _ _
  | bot => rw [le_bot_iff.1 h]
  | coe y =>
    induction e1 using EReal.rec with
    | bot => simpa using hinge_le_one _ _
    | top => simp at h
    | coe x =>
      rw [hinge_coe, hinge_coe]
      have h' : x ≤ y := by exact_mod_cast h
      have : Real.exp (x - loss) ≤ Real.exp (y - loss) := Real.exp_le_exp.2 (by linarith)
      exact max_le_max (le_refl _) (by linarith)

lemma hinge_mono (eps : EReal) {l1 l2 : ℝ} (h : l1 ≤ l2) : hinge eps l1 ≤ hinge eps l2 := by
  unfold hinge; split_ifs
  · exact le_refl _
  · exact le_refl _
  · have : Real.exp (eps.toReal - l2) ≤ Real.exp (eps.toReal - l1) := Real.exp_le_exp.2 (by linarith)
    exact max_le_max (le_refl _) (by linarith)

lemma hinge_of_le {eps : EReal} {l : ℝ} (h : (l : EReal) ≤ eps) : hinge eps l = 0 := by
  induction eps using EReal.rec with
  | top => simp
  | bot => simp at h
  | coe y =>
    have h' : l ≤ y := by exact_mod_cast h
    rw [hinge_coe, max_eq_left]
    have : 1 ≤ Real.exp (y - l) := Real.one_le_exp (by linarith)
    linarith

lemma _root_.Verif.pyExp_coe (x : ℝ) : pyExp (x : EReal) = Real.exp x := by
  simp [pyExp]

lemma _root_.Verif.pyExp_bot : pyExp ⊥ = 0 := by simp [pyExp]

lemma hinge_of_lt {eps : EReal} {l : ℝ} (h : eps < (l : EReal)) : hinge eps l = 1 - pyExp (eps - (l : EReal)) := by
  induction eps using EReal.rec with
  | top => simp at h
  | bot => simp [pyExp]
  | coe y =>
    have h' : y < l := by exact_mod_cast h
    rw [hinge_coe, max_eq_right]
    · rw [← EReal.coe_sub, pyExp_coe]
    · have : Real.exp (y - l) ≤ 1 := Real.exp_le_one_iff.2 (by linarith)
      linarith

end Verif.Spec
