import Verif.Proofs.PldDelta

/-! Lemmas about `_get_epsilon_for_delta`. -/

namespace Verif
open Spec

/-- total probability of a list of (loss, prob) -/
def psum (lps : List (ℝ × ℝ)) : ℝ := (lps.map Prod.snd).sum
/-- total probability under the lower distribution -/
noncomputable def lsum (lps : List (ℝ × ℝ)) : ℝ := (lps.map fun x => Real.exp (-x.1) * x.2).sum

@[simp] lemma psum_nil : psum [] = 0 := rfl
@[simp] lemma lsum_nil : lsum [] = 0 := rfl
@[simp] lemma psum_append (a b : List (ℝ × ℝ)) : psum (a ++ b) = psum a + psum b := by simp [psum]
@[simp] lemma lsum_append (a b : List (ℝ × ℝ)) : lsum (a ++ b) = lsum a + lsum b := by simp [lsum]
@[simp] lemma hsum_append (e : EReal) (a b : List (ℝ × ℝ)) : hsum e (a ++ b) = hsum e a + hsum e b := by simp [hsum]
@[simp] lemma psum_single (l p : ℝ) : psum [(l, p)] = p := by simp [psum]
@[simp] lemma lsum_single (l p : ℝ) : lsum [(l, p)] = Real.exp (-l) * p := by simp [lsum]
@[simp] lemma psum_cons (l p : ℝ) (r) : psum ((l, p) :: r) = p + psum r := by simp [psum]
@[simp] lemma lsum_cons (l p : ℝ) (r) : lsum ((l, p) :: r) = Real.exp (-l) * p + lsum r := by simp [lsum]

lemma hsum_nonneg {e : EReal} {a : List (ℝ × ℝ)} (ha : ∀ x ∈ a, 0 ≤ x.2) : 0 ≤ hsum e a := by
  induction a with
  | nil => simp
  | cons x r ih =>
    obtain ⟨l, p⟩ := x
    rw [hsum_cons]
    have := mul_nonneg (ha (l, p) (by simp)) (hinge_nonneg e l)
    have := ih (fun x hx => ha x (by simp [hx]))
    simp only at *
    linarith

lemma hsum_antitone {e e' : EReal} {a : List (ℝ × ℝ)} (ha : ∀ x ∈ a, 0 ≤ x.2) (h : e ≤ e') :
    hsum e' a ≤ hsum e a := by
  induction a with
  | nil => simp
  | cons x r ih =>
    obtain ⟨l, p⟩ := x
    rw [hsum_cons, hsum_cons]
    have := mul_le_mul_of_nonneg_left (hinge_antitone h l) (ha (l, p) (by simp))
    have := ih (fun x hx => ha x (by simp [hx]))
    simp only at *
    linarith

lemma lsum_nonneg {a : List (ℝ × ℝ)} (ha : ∀ x ∈ a, 0 ≤ x.2) : 0 ≤ lsum a := by
  induction a with
  | nil => simp
  | cons x r ih =>
    obtain ⟨l, p⟩ := x
    rw [lsum_cons]
    have := mul_nonneg (Real.exp_pos (-l)).le (ha (l, p) (by simp))
    have := ih (fun x hx => ha x (by simp [hx]))
    linarith

lemma psum_nonneg {a : List (ℝ × ℝ)} (ha : ∀ x ∈ a, 0 ≤ x.2) : 0 ≤ psum a := by
  induction a with
  | nil => simp
  | cons x r ih =>
    obtain ⟨l, p⟩ := x
    rw [psum_cons]
    have := ha (l, p) (by simp)
    have := ih (fun x hx => ha x (by simp [hx]))
    simp only at *
    linarith

lemma zero_of_lsum_eq_zero {a : List (ℝ × ℝ)} (ha : ∀ x ∈ a, 0 ≤ x.2) (h : lsum a = 0) : ∀ x ∈ a, x.2 = 0 := by
  induction a with
  | nil => simp
  | cons x r ih =>
    obtain ⟨l, p⟩ := x
    rw [lsum_cons] at h
    have h1 := mul_nonneg (Real.exp_pos (-l)).le (ha (l, p) (by simp))
    have h2 := lsum_nonneg (a := r) (fun x hx => ha x (by simp [hx]))
    simp only at h1
    have h3 : Real.exp (-l) * p = 0 := by linarith
    have h4 : p = 0 := by
      rcases mul_eq_zero.1 h3 with h | h
      · exact absurd h (Real.exp_pos _).ne'
      · exact h
    intro y hy
    rcases List.mem_cons.1 hy with rfl | hy
    · exact h4
    · exact ih (fun x hx => ha x (by simp [hx])) (by linarith) y hy

lemma psum_zero {a : List (ℝ × ℝ)} (h : ∀ x ∈ a, x.2 = 0) : psum a = 0 := by
  induction a with
  | nil => simp
  | cons x r ih =>
    obtain ⟨l, p⟩ := x
    rw [psum_cons, ih (fun x hx => h x (by simp [hx]))]
    have := h (l, p) (by simp)
    simp only at this
    linarith

/-- The hockey stick of points above `e`. -/
lemma hsum_above {e : ℝ} {a : List (ℝ × ℝ)} (h : ∀ x ∈ a, e ≤ x.1) :
    hsum (e : EReal) a = psum a - Real.exp e * lsum a := by
  induction a with
  | nil => simp
  | cons x r ih =>
    obtain ⟨l, p⟩ := x
    rw [hsum_cons, psum_cons, lsum_cons, ih (fun x hx => h x (by simp [hx])), hinge_coe, max_eq_right]
    · rw [sub_eq_add_neg e l, Real.exp_add]; ring
    · have h1 := h (l, p) (by simp)
      have : Real.exp (e - l) ≤ 1 := Real.exp_le_one_iff.2 (by simp only at h1; linarith)
      linarith

lemma hsum_lower_bound {e : ℝ} {a : List (ℝ × ℝ)} (ha : ∀ x ∈ a, 0 ≤ x.2) :
    psum a - Real.exp e * lsum a ≤ hsum (e : EReal) a := by
  induction a with
  | nil => simp
  | cons x r ih =>
    obtain ⟨l, p⟩ := x
    rw [hsum_cons, psum_cons, lsum_cons, hinge_coe]
    have h1 := ih (fun x hx => ha x (by simp [hx]))
    have h2 := mul_le_mul_of_nonneg_left (le_max_right 0 (1 - Real.exp (e - l))) (ha (l, p) (by simp))
    have h3 : Real.exp (e - l) = Real.exp e * Real.exp (-l) := by rw [sub_eq_add_neg, Real.exp_add]
    rw [h3] at h2 ⊢
    simp only at h2
    nlinarith

/-- Core of the final step: the break / end of the loop. -/
lemma epsilon_final (δ inf : ℝ) (done rest : List (ℝ × ℝ)) (hinf : inf ≤ δ)
    (hd : ∀ x ∈ done, 0 ≤ x.2) (hr : ∀ x ∈ rest, 0 ≤ x.2)
    (hinv : done = [] ∨ ∃ m : ℝ, (∀ x ∈ done, m ≤ x.1) ∧ (∀ x ∈ rest, x.1 ≤ m) ∧
      inf + psum done - Real.exp m * lsum done ≤ δ)
    (hbreak : rest = [] ∨ (δ < inf + psum done ∧ 0 < lsum done ∧
      ∀ x ∈ rest, x.1 ≤ Real.log ((inf + psum done - δ) / lsum done)))
    (r : ℝ) (hrdef : r = if inf + psum done ≤ lsum done + δ then 0 else
      Real.log ((inf + psum done - δ) / lsum done)) :
    inf + hsum (r : EReal) (done ++ rest) ≤ δ ∧ 0 ≤ r ∧
      ∀ e : ℝ, 0 ≤ e → e < r → δ < inf + hsum (e : EReal) (done ++ rest) := by
  set U := inf + psum done with hU
  set L := lsum done with hL
  have hL0 : 0 ≤ L := lsum_nonneg hd
  have hall : ∀ x ∈ done ++ rest, 0 ≤ x.2 := by
    intro x hx
    rcases List.mem_append.1 hx with h | h
    · exact hd x h
    · exact hr x h
  -- L = 0 forces U = inf
  have hLU : L = 0 → U = inf := by
    intro h
    have := psum_zero (zero_of_lsum_eq_zero hd h)
    rw [hU, this, add_zero]
  -- in the main case the crossing point is exact
  have key : δ < U → 0 < L → inf + hsum ((Real.log ((U - δ) / L) : ℝ) : EReal) (done ++ rest) = δ := by
    intro h1 h2
    have hpos : 0 < (U - δ) / L := div_pos (by linarith) h2
    rcases hinv with hnil | ⟨m, hm1, hm2, hm3⟩
    · exfalso
      rw [hnil] at hL
      simp at hL
      linarith
    · have hle : Real.log ((U - δ) / L) ≤ m := by
        rw [Real.log_le_iff_le_exp hpos, div_le_iff₀ h2]
        linarith
      rw [hsum_append, hsum_above (fun x hx => le_trans hle (hm1 x hx)),
        hsum_zero_of_le (lps := rest), Real.exp_log hpos]
      · rw [← hL]; field_simp; rw [hU]; ring
      · intro x hx
        rcases hbreak with h | ⟨_, _, h⟩
        · rw [h] at hx; simp at hx
        · exact_mod_cast h x hx
  by_cases hc : U ≤ L + δ
  · rw [if_pos hc] at hrdef
    subst hrdef
    refine ⟨?_, le_refl _, fun e h1 h2 => absurd h2 (not_lt.2 h1)⟩
    -- D(0) ≤ δ
    by_cases hmain : δ < U ∧ 0 < L
    · have hk := key hmain.1 hmain.2
      have hpos : 0 < (U - δ) / L := div_pos (by linarith [hmain.1]) hmain.2
      have hle : Real.log ((U - δ) / L) ≤ 0 := by
        rw [Real.log_le_iff_le_exp hpos, div_le_iff₀ hmain.2, Real.exp_zero]; linarith
      have := hsum_antitone (e := ((Real.log ((U - δ) / L) : ℝ) : EReal)) (e' := ((0 : ℝ) : EReal)) hall
        (by exact_mod_cast hle)
      linarith
    · -- then either U ≤ δ or L = 0; no break, rest = [] or nothing
      have hrest : rest = [] := by
        rcases hbreak with h | ⟨h1, h2, _⟩
        · exact h
        · exact absurd ⟨h1, h2⟩ hmain
      subst hrest
      rw [List.append_nil]
      have hUle : U ≤ δ := by
        by_contra h
        have h0 : ¬ 0 < L := fun h' => hmain ⟨not_le.1 h, h'⟩
        have := hLU (le_antisymm (not_lt.1 h0) hL0)
        linarith
      have h1 : hsum ((0 : ℝ) : EReal) done ≤ hsum ⊥ done := hsum_antitone hd bot_le
      have h2 : hsum ⊥ done = psum done := by simp [hsum, psum]
      linarith
  · rw [if_neg hc] at hrdef
    have hU1 : δ < U := by linarith
    have hL1 : 0 < L := by
      rcases hL0.lt_or_eq with h | h
      · exact h
      · have := hLU h.symm; linarith
    have hpos : 0 < (U - δ) / L := div_pos (by linarith) hL1
    subst hrdef
    refine ⟨le_of_eq (key hU1 hL1), ?_, ?_⟩
    · rw [Real.log_nonneg_iff hpos, le_div_iff₀ hL1]; linarith
    · intro e _ he
      have h1 := hsum_lower_bound (e := e) hd
      have h2 := hsum_nonneg (e := (e : EReal)) hr
      rw [hsum_append]
      have h3 : Real.exp e < (U - δ) / L := (Real.lt_log_iff_exp_lt hpos).1 he
      rw [lt_div_iff₀ hL1] at h3
      linarith

lemma epsilonLoop_spec (δ inf : ℝ) (done rest : List (ℝ × ℝ)) (hinf : inf ≤ δ)
    (hd : ∀ x ∈ done, 0 ≤ x.2) (hr : ∀ x ∈ rest, 0 ≤ x.2) (hs : rest.Pairwise (fun a b => b.1 ≤ a.1))
    (hinv : done = [] ∨ ∃ m : ℝ, (∀ x ∈ done, m ≤ x.1) ∧ (∀ x ∈ rest, x.1 ≤ m) ∧
      inf + psum done - Real.exp m * lsum done ≤ δ) :
    let r := PldPmf.epsilonLoop δ rest (inf + psum done) (lsum done)
    inf + hsum (r : EReal) (done ++ rest) ≤ δ ∧ 0 ≤ r ∧
      (inf < δ ∨ (∀ x ∈ (done ++ rest).head?, 0 < x.2) →
        ∀ e : ℝ, 0 ≤ e → e < r → δ < inf + hsum (e : EReal) (done ++ rest)) := by
  induction rest generalizing done with
  | nil =>
    have := epsilon_final δ inf done [] hinf hd hr hinv (Or.inl rfl) _ rfl
    refine ⟨this.1, this.2.1, fun _ => this.2.2⟩
  | cons x rest ih =>
    obtain ⟨l, p⟩ := x
    simp only
    rw [PldPmf.epsilonLoop]
    have hL0 : 0 ≤ lsum done := lsum_nonneg hd
    have hrle : ∀ x ∈ (l, p) :: rest, x.1 ≤ l := by
      intro x hx
      rcases List.mem_cons.1 hx with rfl | hx
      · exact le_refl _
      · exact (List.pairwise_cons.1 hs).1 x hx
    by_cases hb : inf + psum done > δ ∧ lsum done > 0 ∧ Real.log ((inf + psum done - δ) / lsum done) ≥ l
    · rw [if_pos hb]
      have := epsilon_final δ inf done ((l, p) :: rest) hinf hd hr hinv
        (Or.inr ⟨hb.1, hb.2.1, fun x hx => le_trans (hrle x hx) hb.2.2⟩) _ rfl
      exact ⟨this.1, this.2.1, fun _ => this.2.2⟩
    · rw [if_neg hb]
      simp only
      have hdl : ∀ x ∈ done, l ≤ x.1 := by
        intro x hx
        rcases hinv with h | ⟨m, h1, h2, _⟩
        · rw [h] at hx; simp at hx
        · exact le_trans (h2 (l, p) (by simp)) (h1 x hx)
      -- D(l) ≤ δ
      have hDl : inf + psum done - Real.exp l * lsum done ≤ δ := by
        by_cases h1 : inf + psum done > δ
        · by_cases h2 : lsum done > 0
          · have h3 : ¬ Real.log ((inf + psum done - δ) / lsum done) ≥ l := fun h3 => hb ⟨h1, h2, h3⟩
            have hpos : 0 < (inf + psum done - δ) / lsum done := div_pos (by linarith) h2
            have h4 := (Real.log_lt_iff_lt_exp hpos).1 (not_le.1 h3)
            rw [div_lt_iff₀ h2] at h4
            linarith
          · have h3 := psum_zero (zero_of_lsum_eq_zero hd (le_antisymm (not_lt.1 h2) hL0))
            linarith
        · have := mul_nonneg (Real.exp_pos l).le hL0
          linarith [not_lt.1 h1]
      have hp : 0 ≤ p := hr (l, p) (by simp)
      have hd' : ∀ x ∈ done ++ [(l, p)], 0 ≤ x.2 := by
        intro x hx
        rcases List.mem_append.1 hx with h | h
        · exact hd x h
        · simp at h; subst h; exact hp
      have hdone' : ∀ x ∈ done ++ [(l, p)], l ≤ x.1 := by
        intro x hx
        rcases List.mem_append.1 hx with h | h
        · exact hdl x h
        · simp at h; subst h; exact le_refl _
      have hexp : Real.exp l * (Real.exp (-l) * p) = p := by
        rw [← mul_assoc, ← Real.exp_add]; simp
      have hU : inf + psum done + p = inf + psum (done ++ [(l, p)]) := by simp; ring
      have hL : lsum done + Real.exp (-l) * p = lsum (done ++ [(l, p)]) := by simp
      have happ : done ++ (l, p) :: rest = (done ++ [(l, p)]) ++ rest := by simp
      have hDl' : inf + psum (done ++ [(l, p)]) - Real.exp l * lsum (done ++ [(l, p)]) ≤ δ := by
        rw [← hU, ← hL, mul_add, hexp]; linarith
      rw [hU, hL, happ]
      by_cases hz : inf + psum (done ++ [(l, p)]) ≥ δ ∧ lsum (done ++ [(l, p)]) = 0
      · rw [if_pos hz]
        have hzero := zero_of_lsum_eq_zero hd' hz.2
        have hps := psum_zero hzero
        have hDle : inf + hsum (l : EReal) (done ++ [(l, p)] ++ rest) ≤ δ := by
          rw [hsum_append, hsum_above hdone', hsum_zero_of_le (lps := rest)]
          · linarith
          · intro x hx; exact_mod_cast hrle x (by simp [hx])
        have hall : ∀ x ∈ done ++ [(l, p)] ++ rest, 0 ≤ x.2 := by
          intro x hx
          rcases List.mem_append.1 hx with h | h
          · exact hd' x h
          · exact hr x (by simp [h])
        refine ⟨?_, le_max_left _ _, ?_⟩
        · have := hsum_antitone (e := (l : EReal)) (e' := ((max 0 l : ℝ) : EReal)) hall
            (by exact_mod_cast le_max_right 0 l)
          linarith
        · rintro (h | h)
          · exfalso; rw [hps] at hz; linarith [hz.1]
          · exfalso
            cases done with
            | nil =>
              have := h (l, p) (by simp)
              have h2 := hzero (l, p) (by simp)
              linarith
            | cons y ys =>
              have := h y (by simp)
              have h2 := hzero y (by simp)
              linarith
      · rw [if_neg hz]
        exact ih (done ++ [(l, p)]) hd' (fun x hx => hr x (by simp [hx])) hs.of_cons
          (Or.inr ⟨l, hdone', fun x hx => hrle x (by simp [hx]), hDl'⟩)

lemma getEpsilon_spec (δ inf : ℝ) (rl probs : List ℝ) (hp : ∀ p ∈ probs, 0 ≤ p)
    (hs : rl.Pairwise (fun a b => b ≤ a)) :
    (PldPmf.getEpsilon inf rl probs δ = ⊤ ↔ δ < inf) ∧
    (inf ≤ δ → ∃ r : ℝ, PldPmf.getEpsilon inf rl probs δ = (r : EReal) ∧ 0 ≤ r ∧
      inf + hsum (r : EReal) (rl.zip probs) ≤ δ ∧
      ((inf < δ ∨ (∀ x ∈ (rl.zip probs).head?, 0 < x.2)) →
        ∀ e : ℝ, 0 ≤ e → e < r → δ < inf + hsum (e : EReal) (rl.zip probs))) := by
  unfold PldPmf.getEpsilon
  have hzip : (rl.zip probs).Pairwise (fun a b => b.1 ≤ a.1) := by
    clear hp
    induction rl generalizing probs with
    | nil => simp
    | cons a as ih =>
      cases probs with
      | nil => simp
      | cons b bs =>
        simp only [List.zip_cons_cons, List.pairwise_cons]
        refine ⟨?_, ih bs hs.of_cons⟩
        intro x hx
        exact (List.pairwise_cons.1 hs).1 x.1 (List.of_mem_zip (a := x.1) (b := x.2) hx).1
  have hnn : ∀ x ∈ rl.zip probs, 0 ≤ x.2 := fun x hx => hp x.2 (List.of_mem_zip (a := x.1) (b := x.2) hx).2
  refine ⟨?_, ?_⟩
  · by_cases h : inf > δ
    · simp [h]
    · rw [if_neg h]
      simp only [EReal.coe_ne_top, false_iff]
      exact h
  · intro h
    rw [if_neg (not_lt.2 h)]
    have := epsilonLoop_spec δ inf [] (rl.zip probs) h (by simp) hnn hzip (Or.inl rfl)
    simp only [psum_nil, lsum_nil, add_zero, List.nil_append] at this
    exact ⟨_, rfl, this.2.1, this.1, this.2.2⟩

end Verif
