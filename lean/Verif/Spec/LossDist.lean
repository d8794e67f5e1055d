import Mathlib.Analysis.SpecialFunctions.Exp
import Mathlib.Data.EReal.Basic
import Verif.Model.PldPmf

/-!
# Specification: discrete privacy loss distributions

Independent of the algorithms of `pld_pmf.py`: what a stored PMF *means* and what its hockey-stick divergence is.
-/

namespace Verif.Spec

/-- `Σ mass · φ(key)` over a finite list of (key, mass) points: the integral of `φ` against the measure they describe. -/
def expect (pts : List (ℤ × ℝ)) (φ : ℤ → ℝ) : ℝ := (pts.map fun x => x.2 * φ x.1).sum

/-- Contribution of an outcome with privacy loss `loss` to the `eps`-hockey-stick divergence: `max(0, 1 - e^(eps-loss))`
(class comment of `PLDPmf`, supplementary material eq. (1)); `eps` may be infinite. -/
noncomputable def hinge (eps : EReal) (loss : ℝ) : ℝ :=
  open Classical in
  if eps = ⊤ then 0 else if eps = ⊥ then 1 else max 0 (1 - Real.exp (eps.toReal - loss))

/-- The (key, mass) points a dense PMF stands for: mass `probs[i]` at grid key `lower_loss + i`
(docstring `pld_pmf.py:316-321`). -/
def _root_.Verif.Dense.points (d : Dense) : List (ℤ × ℝ) :=
  (List.range d.probs.length).map fun (i : ℕ) => (d.lowerLoss + (i : ℤ), d.probs.getD i 0)

/-- The (key, mass) points of a PMF of either class; a key `k` means privacy loss `k * discretization`. -/
def _root_.Verif.Pmf.points : Pmf → List (ℤ × ℝ)
  | .dense d => d.points
  | .sparse s => s.lossProbs

/-- The hockey-stick divergence of the distribution "mass at the points, plus `infinity_mass` at loss `+∞`". -/
noncomputable def hockeyStick (infinityMass disc : ℝ) (pts : List (ℤ × ℝ)) (eps : EReal) : ℝ :=
  infinityMass + expect pts fun k => hinge eps (k * disc)

/-- Hockey-stick divergence of a stored PMF. -/
noncomputable def _root_.Verif.Pmf.hs (m : Pmf) (eps : EReal) : ℝ := hockeyStick m.infinityMass m.disc m.points eps

/-- Mass at finite losses. -/
noncomputable def finiteMass (pts : List (ℤ × ℝ)) : ℝ := expect pts fun _ => 1

/-- A PMF object as produced by the library: positive discretisation, dictionary keys distinct. -/
def _root_.Verif.Pmf.WF : Pmf → Prop
  | .dense d => 0 < d.disc
  | .sparse s => 0 < s.disc ∧ s.lossProbs.keys.Nodup

/-- All masses (finite and infinite) are non-negative. -/
def _root_.Verif.Pmf.NonNeg (m : Pmf) : Prop := 0 ≤ m.infinityMass ∧ ∀ x ∈ m.points, 0 ≤ x.2

/-- Two PMFs describe the same distribution of the privacy loss on the same grid (whatever their representation). -/
def SameDist (a b : Pmf) : Prop :=
  a.disc = b.disc ∧ a.pessimistic = b.pessimistic ∧ a.infinityMass = b.infinityMass ∧
    ∀ φ : ℤ → ℝ, expect a.points φ = expect b.points φ

/-- Total mass, finite and infinite losses. -/
noncomputable def totalMass (m : Pmf) : ℝ := m.infinityMass + finiteMass m.points

/-- `E φ(X_1 + ... + X_n)` for independent draws from (the finite part of) a distribution. -/
noncomputable def nfold (pts : List (ℤ × ℝ)) : ℕ → (ℤ → ℝ) → ℝ
  | 0, φ => φ 0
  | n + 1, φ => expect pts fun k => nfold pts n fun m => φ (k + m)

/-- Hockey-stick divergence of the sum of `n` independent privacy losses distributed as `m`: infinite with probability
`1 - (1 - infinity_mass)^n`. -/
noncomputable def _root_.Verif.Pmf.nfoldHs (m : Pmf) (n : ℕ) (eps : EReal) : ℝ :=
  1 - (1 - m.infinityMass) ^ n + nfold m.points n fun k => hinge eps (k * m.disc)

/-- Hockey-stick divergence of the sum of two independent privacy losses distributed as `a` and `b`. -/
noncomputable def _root_.Verif.Pmf.sumHs (a b : Pmf) (eps : EReal) : ℝ :=
  1 - (1 - a.infinityMass) * (1 - b.infinityMass) +
    expect a.points fun i => expect b.points fun j => hinge eps ((i + j) * a.disc)

end Verif.Spec
