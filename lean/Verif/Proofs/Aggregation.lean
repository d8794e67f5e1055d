import Verif.Spec.Aggregation
import Verif.Proofs.Generators
import Verif.Proofs.PolygonNoise
import Verif.Proofs.MeanMechanism
import Verif.Proofs.NoiseMonotoneInst

/-! # The PipelineDP mechanism: a private engine that counts privacy ids -/

namespace Verif.Aggregation
open Verif Verif.Spec Verif.Generators MeasureTheory

/-- The number of privacy ids with records in partition `k`. -/
def idCount (k : ℕ) (partition privacyId : Record → ℕ) (data : List Record) : ℕ :=
  ((data.filter fun r => partition r = k).map privacyId).toFinset.card

/-- An engine that counts the privacy ids in partition `k` with Laplace noise. -/
noncomputable def countEngine (k : ℕ) : Engine ℝ := fun eps _ partition privacyId _ _ data draw =>
  [(k, [(idCount k partition privacyId data : ℝ) + draw / eps])]

lemma idCount_removes {k : ℕ} {partition privacyId : Record → ℕ} {small big : List Record} (h : RemovesUser privacyId small big) :
    |(idCount k partition privacyId small : ℝ) - idCount k partition privacyId big| ≤ 1 := by
  obtain ⟨u, -, hp⟩ := h
  unfold idCount
  set B := ((big.filter fun r => partition r = k).map privacyId).toFinset
  have e : ((small.filter fun r => partition r = k).map privacyId).toFinset = B.erase u := by
    ext x
    simp only [B, List.mem_toFinset, List.mem_map, List.mem_filter, Finset.mem_erase, hp.mem_iff]
    constructor
    · rintro ⟨r, ⟨⟨h1, h2⟩, h3⟩, rfl⟩
      exact ⟨by simpa using h2, r, ⟨h1, h3⟩, rfl⟩
    · rintro ⟨h2, r, ⟨h1, h3⟩, rfl⟩
      exact ⟨r, ⟨⟨h1, by simpa using h2⟩, h3⟩, rfl⟩
  rw [e]
  have h1 := Finset.card_erase_le (s := B) (a := u)
  have h2 := Finset.pred_card_le_card_erase (s := B) (a := u)
  have h3 : (((B.erase u).card : ℕ) : ℝ) ≤ B.card := by exact_mod_cast h1
  have h4 : (B.card : ℝ) ≤ ((B.erase u).card : ℕ) + 1 := by exact_mod_cast (by omega)
  rw [abs_le]
  constructor <;> linarith

lemma affine_law {eps : ℝ} (he : 0 < eps) (c : ℝ) : (laplace 0 1).map (fun x => c + x / eps) = laplace c (1 / eps) := by
  have h1 := Mech.laplace_scale_mul one_pos (inv_pos.2 he)
  have h2 := Mech.laplace_shift (eps⁻¹ * 1) c
  rw [← h1, Measure.map_map (by fun_prop) (by fun_prop)] at h2
  rw [mul_one] at h2
  rw [one_div, ← h2]
  congr 1
  funext x
  simp only [Function.comp]
  ring

lemma hidden_shift {eps : ℝ} (he : 0 < eps) {c c' : ℝ} (hc : |c - c'| ≤ 1) {O : Type} (out : ℝ → O) {delta : ℝ} (hd : 0 ≤ delta) :
    Hidden (laplace 0 1) (fun x => out (c + x / eps)) (fun x => out (c' + x / eps)) eps delta := by
  intro S hS _
  have hT : MeasurableSet (out ⁻¹' S) := by
    have hm : Measurable fun y : ℝ => (y - c) * eps := by fun_prop
    have := hm hS
    convert this using 1
    ext y
    simp only [Set.mem_preimage]
    rw [mul_div_cancel_right₀ _ he.ne', add_sub_cancel]
  have e : ∀ c : ℝ, (laplace 0 1).real ((fun x => out (c + x / eps)) ⁻¹' S) = (laplace c (1 / eps)).real (out ⁻¹' S) := by
    intro c
    rw [← affine_law he c, map_measureReal_apply (by fun_prop) hT]
    rfl
  rw [e, e]
  have hb : 0 < 1 / eps := by positivity
  have := laplace_prob c' hb
  have h1 := Mech.laplace_indist hb c c' (out ⁻¹' S) hT
  have h2 : Real.exp (|c - c'| / (1 / eps)) ≤ Real.exp eps := by
    refine Real.exp_le_exp.2 ?_
    rw [div_div_eq_mul_div, div_one]
    nlinarith
  have := mul_le_mul_of_nonneg_right h2 (measureReal_nonneg (μ := laplace c' (1 / eps)) (s := out ⁻¹' S))
  linarith

lemma countEngine_private (k : ℕ) : EnginePrivate (laplace 0 1) (countEngine k) := by
  intro eps delta partition privacyId value pub small big he hd h
  have h1 := idCount_removes (k := k) (partition := partition) h
  exact ⟨hidden_shift he h1 (fun y => [(k, [y])]) hd, hidden_shift he (by rwa [abs_sub_comm]) (fun y => [(k, [y])]) hd⟩

/-- The counts of the last row of the table of the generator. -/
lemma idCount_generator {n m : ℕ} (hn : n ≠ 0) {params : List ℝ} (hl : params.length = n * m) :
    ∃ d1 d2, pipelineDp n m params = .ok (d1, d2) ∧ idCount (n - 1) mechanismPartition mechanismPrivacyId d1 = 0 ∧
      idCount (n - 1) mechanismPartition mechanismPrivacyId d2 = m := by
  rw [pipelineDp, reshape_ok hl]
  generalize hrows : (List.range n).map (fun i => (params.drop (i * m)).take m) = rows
  have hlen : rows.length = n := by rw [← hrows]; simp
  have hrl : ∀ row ∈ rows, row.length = m := fun row hr => chunk_length hl (by rw [hrows]; exact hr)
  refine ⟨_, _, rfl, ?_, ?_⟩
  · unfold idCount
    rw [List.filter_eq_nil_iff.2]
    · rfl
    · intro r hr
      have := sparse_fst_lt hr
      rw [List.length_dropLast] at this
      rw [mechanismPartition, decide_eq_true_eq]
      omega
  · unfold idCount
    have e : (((sparse rows).filter fun r => mechanismPartition r = n - 1).map mechanismPrivacyId).toFinset = Finset.range m := by
      ext x
      have hi : n - 1 < rows.length := by omega
      have hx := hrl _ (List.getElem_mem hi)
      simp only [List.mem_toFinset, List.mem_map, List.mem_filter, Finset.mem_range, mem_sparse, decide_eq_true_eq, mechanismPartition, mechanismPrivacyId]
      constructor
      · rintro ⟨r, ⟨⟨row, h1, h2⟩, h3⟩, rfl⟩
        obtain ⟨h4, -⟩ := List.getElem?_eq_some_iff.1 h2
        rw [← hrl row (List.mem_of_getElem? h1)]
        exact h4
      · intro h
        have hj : x < rows[n - 1].length := by omega
        exact ⟨(n - 1, x, rows[n - 1][x]), ⟨⟨rows[n - 1], List.getElem?_eq_getElem hi, List.getElem?_eq_getElem hj⟩, by simp⟩, rfl⟩
    rw [e, Finset.card_range]

end Verif.Aggregation
