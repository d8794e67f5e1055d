import Verif.Spec.Validation
import Verif.Model.AdditiveNoise

/-!
# Proofs about parameter checks
-/

namespace Verif

open Spec Validation PyFloat

theorem Accepts.ok {α : Type} (a : α) : Accepts (.ok a) True := ⟨fun _ => ⟨a, rfl⟩, fun h => absurd trivial h⟩

theorem Accepts.congr {α : Type} {r : Except Err α} {p q : Prop} (h : Accepts r p) (e : p ↔ q) : Accepts r q := by rwa [← e]

theorem Accepts.ite {α : Type} {c : Prop} [Decidable c] {r : Except Err α} {p : Prop} (h : Accepts r p) :
    Accepts (if c then .error .valueError else r) (¬c ∧ p) := by
  by_cases hc : c
  · simp [Accepts, hc]
  · simpa [hc] using h

theorem Accepts.map {α β : Type} {f : α → β} {r : Except Err α} {p : Prop} (h : Accepts r p) : Accepts (r.map f) p :=
  ⟨fun hp => by obtain ⟨a, ha⟩ := h.1 hp; exact ⟨f a, by rw [ha]; rfl⟩, fun hp => by rw [h.2 hp]; rfl⟩

theorem positive_accepts {x : Option PyFloat} (hx : NotNan x) : Accepts (positive x) (GivenPositive x) := by
  cases x with
  | none => simp [Accepts, positive, falsy, GivenPositive]
  | some v =>
    cases v with
    | nan => exact absurd rfl hx
    | num v =>
      by_cases h0 : v = 0
      · simp [Accepts, positive, falsy, GivenPositive, h0]
      · by_cases h1 : v ≤ 0
        · simp [Accepts, positive, falsy, GivenPositive, h0, PyFloat.le, h1]
        · simp [Accepts, positive, falsy, GivenPositive, h0, PyFloat.le, h1, lt_of_not_ge h1]

theorem Accepts.bind {α β : Type} {r : Except Err α} {s : α → Except Err β} {p q : Prop} (h1 : Accepts r p) (h2 : ∀ a, Accepts (s a) q) :
    Accepts (r >>= s) (p ∧ q) := by
  constructor
  · rintro ⟨hp, hq⟩
    obtain ⟨a, ha⟩ := h1.1 hp
    obtain ⟨b, hb⟩ := (h2 a).1 hq
    exact ⟨b, by rw [ha]; exact hb⟩
  · intro h
    by_cases hp : p
    · obtain ⟨a, ha⟩ := h1.1 hp
      rw [ha]
      exact (h2 a).2 fun hq => h ⟨hp, hq⟩
    · rw [h1.2 hp]; rfl

theorem checkBase_accepts (s q : ℝ) : Accepts (Mech.checkBase s q) (0 < s ∧ 0 < q ∧ q ≤ 1) := by
  classical
  exact Accepts.congr (Accepts.ite (Accepts.ite (Accepts.ok ()))) (by push Not; tauto)

end Verif
