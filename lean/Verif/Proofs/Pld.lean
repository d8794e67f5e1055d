import Verif.Spec.Discrete
import Verif.Proofs.PldPmfSelf
import Verif.Proofs.PldDelta
import Verif.Proofs.PldComposedDelta
import Verif.Proofs.PldEpsilon
import Mathlib.Tactic.Linarith
import Mathlib.Tactic.FieldSimp

namespace Verif
open Verif.Spec Verif.PldPmf Verif.PldCommon

lemma PyDict.expect_addK (d : PyDict) (k : ℤ) (v : ℝ) (φ : ℤ → ℝ) :
    expect (d.add k v) φ = expect d φ + v * φ k := PyDict.expect_set d k v φ

lemma PyDict.nodup_add {d : PyDict} (hd : d.keys.Nodup) (k : ℤ) (v : ℝ) : (d.add k v).keys.Nodup :=
  PyDict.nodup_set hd k _

lemma PyDict.add_nonneg {d : PyDict} (hd : ∀ x ∈ d, 0 ≤ x.2) (k : ℤ) {v : ℝ} (hv : 0 ≤ v) : ∀ x ∈ d.add k v, 0 ≤ x.2 :=
  PyDict.set_nonneg hd k (by have := PyDict.get_nonneg hd k; linarith)

/-- `create_pmf` always succeeds and represents the dictionary. -/
lemma createPmf_ok {d : PyDict} {disc inf : ℝ} {pess : Bool} (hn : d.keys.Nodup) (hd : 0 < disc) :
    ∃ m, createPmf d disc inf pess = .ok m ∧ m.WF ∧ m.disc = disc ∧ m.infinityMass = inf ∧ m.pessimistic = pess ∧
      (∀ φ, expect m.points φ = expect d φ) ∧ (0 ≤ inf → (∀ x ∈ d, 0 ≤ x.2) → m.NonNeg) ∧ (d ≠ [] → m.points ≠ []) := by
  unfold createPmf
  by_cases hl : d.length ≤ maxPmfSparseSize
  · rw [if_pos hl]
    exact ⟨_, rfl, ⟨hd, hn⟩, rfl, rfl, rfl, fun φ => rfl, fun h1 h2 => ⟨h1, h2⟩, fun h => h⟩
  · rw [if_neg hl]
    have hne : d ≠ [] := by rintro rfl; simp [maxPmfSparseSize] at hl
    obtain ⟨off, l, h⟩ := dictionaryToList_ok hne
    have hs : (Sparse.mk d disc inf pess).toDense = .ok ⟨disc, off, l, inf, pess⟩ := by
      simp [Sparse.toDense, h]
    obtain ⟨_, _, _, h4, h5, h6⟩ := Sparse.toDense_spec hs hn
    rw [h]
    refine ⟨_, rfl, hd, rfl, rfl, rfl, h5, fun h1 h2 => ⟨h1, (dense_nonneg_iff _).2 (h6 h2)⟩, fun _ => ?_⟩
    intro h0
    apply h4
    have := congrArg List.length h0
    simp only [Pmf.points, Dense.points, List.length_map, List.length_range, List.length_nil] at this
    exact List.length_eq_zero_iff.1 this

namespace Pld

lemma mk'_none (m : Pmf) : mk' m none = ⟨m, m, true⟩ := rfl
lemma mk'_some (m a : Pmf) : mk' m (some a) = ⟨m, a, false⟩ := rfl

lemma valid_none {m : Pmf} (h : m.WF) : (mk' m none).Valid := ⟨h, h, rfl, rfl, fun _ => rfl⟩
lemma valid_some {m a : Pmf} (h : m.WF) (ha : a.WF) (hd : a.disc = m.disc) (hp : a.pessimistic = m.pessimistic) :
    (mk' m (some a)).Valid := ⟨h, ha, hd, hp, fun h => by simp [mk'] at h⟩

/-- A symmetric object built from a dictionary. -/
lemma createFromRounded_symm {d : PyDict} {disc inf : ℝ} {pess : Bool} (hn : d.keys.Nodup) (hd : 0 < disc) :
    ∃ m, createFromRounded d inf disc pess none none true = .ok (mk' m none) ∧ m.WF ∧ m.disc = disc ∧
      m.infinityMass = inf ∧ m.pessimistic = pess ∧ (∀ φ, expect m.points φ = expect d φ) ∧
      (0 ≤ inf → (∀ x ∈ d, 0 ≤ x.2) → m.NonNeg) ∧ (d ≠ [] → m.points ≠ []) := by
  obtain ⟨m, h, r⟩ := createPmf_ok (inf := inf) (pess := pess) hn hd
  refine ⟨m, ?_, r⟩
  unfold createFromRounded
  rw [h]; simp

/-- An asymmetric object built from two dictionaries. -/
lemma createFromRounded_asymm {d da : PyDict} {disc inf infa : ℝ} {pess : Bool} (hn : d.keys.Nodup)
    (hna : da.keys.Nodup) (hd : 0 < disc) :
    ∃ m a, createFromRounded d inf disc pess (some da) (some infa) false = .ok (mk' m (some a)) ∧
      (m.WF ∧ m.disc = disc ∧ m.infinityMass = inf ∧ m.pessimistic = pess ∧ (∀ φ, expect m.points φ = expect d φ) ∧
      (0 ≤ inf → (∀ x ∈ d, 0 ≤ x.2) → m.NonNeg) ∧ (d ≠ [] → m.points ≠ [])) ∧
      (a.WF ∧ a.disc = disc ∧ a.infinityMass = infa ∧ a.pessimistic = pess ∧ (∀ φ, expect a.points φ = expect da φ) ∧
      (0 ≤ infa → (∀ x ∈ da, 0 ≤ x.2) → a.NonNeg) ∧ (da ≠ [] → a.points ≠ [])) := by
  obtain ⟨m, h, r⟩ := createPmf_ok (inf := inf) (pess := pess) hn hd
  obtain ⟨a, h', r'⟩ := createPmf_ok (inf := infa) (pess := pess) hna hd
  refine ⟨m, a, ?_, r, r'⟩
  unfold createFromRounded
  rw [h]; simp only [h', Bool.false_eq_true, if_false]

lemma hs_eq_of_symm {p : Pld} (h : p.Valid) (hs : p.symmetric = true) (e : EReal) : p.hs e = p.remove.hs e := by
  unfold Pld.hs; rw [h.symm hs, max_self]

lemma getDelta_eq {p : Pld} (h : p.Valid) (e : EReal) : p.getDeltaForEpsilon e = p.hs e := by
  unfold getDeltaForEpsilon
  by_cases hs : p.symmetric = true
  · rw [if_pos hs, hs_eq_of_symm h hs, Pmf.getDelta_eq_hs _ h.wfRemove]
  · rw [if_neg hs, Pmf.getDelta_eq_hs _ h.wfRemove, Pmf.getDelta_eq_hs _ h.wfAdd]; rfl

lemma getDeltas_eq {p : Pld} (h : p.Valid) (es : List EReal) (hs : es.Pairwise (· ≤ ·)) :
    p.getDeltaForEpsilons es = .ok (es.map p.hs) := by
  unfold getDeltaForEpsilons
  rw [Pmf.getDeltas_eq _ h.wfRemove es hs]
  by_cases hsy : p.symmetric = true
  · simp only [hsy, if_true, Except.ok.injEq]
    apply List.map_congr_left
    intro e _; rw [hs_eq_of_symm h hsy]
  · simp only [hsy, Pmf.getDeltas_eq _ h.wfAdd es hs]
    simp only [Bool.false_eq_true, if_false, Except.ok.injEq]
    clear hs
    induction es with
    | nil => rfl
    | cons e es ih => simp only [List.map_cons, List.zipWith_cons_cons, ih]; rfl

/-! ### from_two_probability_mass_functions -/

/-- `Σ v ψ(x)` over a float-keyed dictionary. -/
def rsum (d : List (ℝ × ℝ)) (ψ : ℝ → ℝ) : ℝ := (d.map fun x => x.2 * ψ x.1).sum

@[simp] lemma rsum_nil (ψ : ℝ → ℝ) : rsum [] ψ = 0 := rfl
@[simp] lemma rsum_cons (x v : ℝ) (d : List (ℝ × ℝ)) (ψ : ℝ → ℝ) : rsum ((x, v) :: d) ψ = v * ψ x + rsum d ψ := by
  simp [rsum]

lemma rsum_addLoss (d : List (ℝ × ℝ)) (x v : ℝ) (ψ : ℝ → ℝ) : rsum (addLoss d x v) ψ = rsum d ψ + v * ψ x := by
  induction d with
  | nil => simp [addLoss]
  | cons y d ih =>
    obtain ⟨x', w⟩ := y
    simp only [addLoss]
    split_ifs with h
    · subst h; simp only [rsum_cons]; ring
    · simp only [rsum_cons, ih]; ring

lemma addLoss_nonneg {d : List (ℝ × ℝ)} (hd : ∀ x ∈ d, 0 ≤ x.2) (x : ℝ) {v : ℝ} (hv : 0 ≤ v) :
    ∀ y ∈ addLoss d x v, 0 ≤ y.2 := by
  induction d with
  | nil => intro y hy; simp [addLoss] at hy; subst hy; simpa using hv
  | cons z d ih =>
    obtain ⟨x', w⟩ := z
    have h0 := hd (x', w) (by simp)
    have h1 := ih (fun y hy => hd y (by simp [hy]))
    intro y hy
    simp only [addLoss] at hy
    split_ifs at hy with h
    · rcases List.mem_cons.1 hy with rfl | hy
      · simp only at *; linarith
      · exact hd y (by simp [hy])
    · rcases List.mem_cons.1 hy with rfl | hy
      · exact h0
      · exact h1 y hy

lemma roundLoop_spec (disc : ℝ) (pess : Bool) (pts : List (ℝ × ℝ)) (d : PyDict) :
    (∀ φ, expect (roundLoop disc pess pts d) φ = expect d φ + rsum pts fun x => φ (roundFn pess (x / disc))) ∧
    (d.keys.Nodup → (roundLoop disc pess pts d).keys.Nodup) ∧
    ((∀ x ∈ pts, 0 ≤ x.2) → (∀ x ∈ d, 0 ≤ x.2) → ∀ x ∈ roundLoop disc pess pts d, 0 ≤ x.2) := by
  induction pts generalizing d with
  | nil => simp [roundLoop]
  | cons y pts ih =>
    obtain ⟨x, v⟩ := y
    obtain ⟨h1, h2, h3⟩ := ih (d.add (roundFn pess (x / disc)) v)
    refine ⟨fun φ => ?_, fun hd => h2 (PyDict.nodup_add hd _ _), fun hp hd => ?_⟩
    · simp only [roundLoop, rsum_cons]
      rw [h1, PyDict.expect_addK]; ring
    · exact h3 (fun z hz => hp z (by simp [hz])) (PyDict.add_nonneg hd _ (hp (x, v) (by simp)))

variable {O : Type} [DecidableEq O]

lemma expLog_nonneg (x : LogProb) : 0 ≤ expLog x := by
  cases x using WithBot.recBotCoe with
  | bot => simp [expLog]
  | coe x => exact (Real.exp_pos x).le

lemma expLog_eq_zero (x : LogProb) : expLog x = 0 ↔ x = ⊥ := by
  cases x using WithBot.recBotCoe with
  | bot => simp [expLog]
  | coe x => simp [expLog, Real.exp_ne_zero]

@[simp] lemma expLog_bot : expLog ⊥ = 0 := rfl
@[simp] lemma expLog_coe (x : ℝ) : expLog (x : LogProb) = Real.exp x := rfl

lemma outsideMass_eq (lower : LogPmf O) (up : LogPmf O) (acc : ℝ) :
    outsideMass lower up acc = acc + (up.map fun x => if LogPmf.get lower x.1 = ⊥ then expLog x.2 else 0).sum := by
  induction up generalizing acc with
  | nil => simp [outsideMass]
  | cons x up ih =>
    obtain ⟨o, lu⟩ := x
    simp only [outsideMass, ih, List.map_cons, List.sum_cons]
    split_ifs <;> ring

/-- What one entry of the lower distribution adds to `infinity_mass` and, tested against `ψ`, to the loss dictionary. -/
noncomputable def entryLoss (upper : LogPmf O) (bound : LogProb) (pess : Bool) (ψ : ℝ → ℝ) (x : O × LogProb) : ℝ :=
  open Classical in
  match x.2 with
  | ⊥ => 0
  | (l : ℝ) =>
    if bound < LogPmf.get upper x.1 then
      match LogPmf.get upper x.1 with
      | ⊥ => 0
      | (u : ℝ) => Real.exp u * ψ (u - l)
    else if pess then expLog (LogPmf.get upper x.1) else 0

lemma lossLoop_spec (upper : LogPmf O) (bound : LogProb) (pess : Bool) (low : LogPmf O) (inf : ℝ) (pmf : List (ℝ × ℝ)) :
    (∀ ψ, (lossLoop upper bound pess low inf pmf).1 + rsum (lossLoop upper bound pess low inf pmf).2 ψ =
      inf + rsum pmf ψ + (low.map (entryLoss upper bound pess ψ)).sum) ∧
    ((∀ x ∈ pmf, 0 ≤ x.2) → ∀ x ∈ (lossLoop upper bound pess low inf pmf).2, 0 ≤ x.2) ∧
    inf ≤ (lossLoop upper bound pess low inf pmf).1 := by
  induction low generalizing inf pmf with
  | nil => simp [lossLoop]
  | cons x low ih =>
    obtain ⟨o, ll⟩ := x
    cases ll using WithBot.recBotCoe with
    | bot =>
      obtain ⟨h1, h2, h3⟩ := ih inf pmf
      exact ⟨fun ψ => by simp [lossLoop, h1, entryLoss], h2, h3⟩
    | coe l =>
      by_cases hb : bound < LogPmf.get upper o
      · cases hu : LogPmf.get upper o using WithBot.recBotCoe with
        | bot => rw [hu] at hb; simp at hb
        | coe u =>
          have e : lossLoop upper bound pess ((o, (l : LogProb)) :: low) inf pmf =
              lossLoop upper bound pess low inf (addLoss pmf (u - l) (Real.exp u)) := by
            simp only [lossLoop]; rw [if_pos hb, hu]
          rw [e]
          obtain ⟨h1, h2, h3⟩ := ih inf (addLoss pmf (u - l) (Real.exp u))
          refine ⟨fun ψ => ?_, fun hp => h2 (addLoss_nonneg hp _ (Real.exp_pos u).le), h3⟩
          rw [h1, rsum_addLoss, List.map_cons, List.sum_cons]
          have : entryLoss upper bound pess ψ (o, (l : LogProb)) = Real.exp u * ψ (u - l) := by
            simp only [entryLoss]; rw [if_pos hb, hu]
          rw [this]; ring
      · have e : lossLoop upper bound pess ((o, (l : LogProb)) :: low) inf pmf =
            lossLoop upper bound pess low (if pess then inf + expLog (LogPmf.get upper o) else inf) pmf := by
          simp only [lossLoop]; rw [if_neg hb]
        rw [e]
        obtain ⟨h1, h2, h3⟩ := ih (if pess then inf + expLog (LogPmf.get upper o) else inf) pmf
        refine ⟨fun ψ => ?_, h2, le_trans ?_ h3⟩
        · rw [h1, List.map_cons, List.sum_cons]
          have : entryLoss upper bound pess ψ (o, (l : LogProb)) = if pess then expLog (LogPmf.get upper o) else 0 := by
            simp only [entryLoss]; rw [if_neg hb]
          rw [this]
          split_ifs <;> ring
        · have := expLog_nonneg (LogPmf.get upper o)
          split_ifs <;> linarith

lemma LogPmf.get_of_mem {d : LogPmf O} (hn : (d.map Prod.fst).Nodup) {x : O × LogProb} (hx : x ∈ d) :
    LogPmf.get d x.1 = x.2 := by
  induction d with
  | nil => simp at hx
  | cons y d ih =>
    obtain ⟨o, v⟩ := y
    rw [List.map_cons, List.nodup_cons] at hn
    rcases List.mem_cons.1 hx with rfl | hx
    · simp [LogPmf.get]
    · have : o ≠ x.1 := by
        intro h
        have hm : x.1 ∈ d.map Prod.fst := List.mem_map_of_mem hx
        rw [← h] at hm; exact hn.1 hm
      simp only [LogPmf.get, this, if_false]
      exact ih hn.2 hx

lemma LogPmf.get_of_notMem {d : LogPmf O} {o : O} (h : o ∉ d.map Prod.fst) : LogPmf.get d o = ⊥ := by
  induction d with
  | nil => rfl
  | cons y d ih =>
    obtain ⟨o', v⟩ := y
    rw [List.map_cons, List.mem_cons, not_or] at h
    simp only [LogPmf.get, if_neg (Ne.symm h.1)]
    exact ih h.2

/-- A sum over the entries of a dictionary is a sum over any finite set of outcomes containing its keys. -/
lemma sum_entries {d : LogPmf O} (hn : (d.map Prod.fst).Nodup) (S : Finset O) (hS : ∀ o ∈ d.map Prod.fst, o ∈ S)
    (f : O × LogProb → ℝ) (hf : ∀ o, f (o, ⊥) = 0) : (d.map f).sum = ∑ o ∈ S, f (o, LogPmf.get d o) := by
  have h1 : (d.map f).sum = ((d.map Prod.fst).map fun o => f (o, LogPmf.get d o)).sum := by
    rw [List.map_map]
    congr 1
    apply List.map_congr_left
    intro x hx
    simp only [Function.comp, LogPmf.get_of_mem hn hx]
  rw [h1, ← List.sum_toFinset _ hn]
  apply Finset.sum_subset
  · intro o ho; exact hS o (List.mem_toFinset.1 ho)
  · intro o _ ho
    rw [List.mem_toFinset] at ho
    rw [LogPmf.get_of_notMem ho, hf]

/-- Contribution of one outcome to the delta of the rounded distribution. -/
noncomputable def contribution (lower upper : LogPmf O) (bound : LogProb) (pess : Bool) (ψ : ℝ → ℝ) (o : O) : ℝ :=
  (if LogPmf.get lower o = ⊥ then prob upper o else 0) + entryLoss upper bound pess ψ (o, LogPmf.get lower o)

lemma roundedPmf_spec (lower upper : LogPmf O) (hl : (lower.map Prod.fst).Nodup) (hu : (upper.map Prod.fst).Nodup)
    (pess : Bool) (disc : ℝ) (bound : LogProb) :
    (∀ φ, (roundedPmf lower upper pess disc bound).1 + expect (roundedPmf lower upper pess disc bound).2 φ =
      ∑ o ∈ outcomes lower upper, contribution lower upper bound pess (fun x => φ (roundFn pess (x / disc))) o) ∧
    (roundedPmf lower upper pess disc bound).2.keys.Nodup ∧
    (∀ x ∈ (roundedPmf lower upper pess disc bound).2, 0 ≤ x.2) ∧ 0 ≤ (roundedPmf lower upper pess disc bound).1 := by
  unfold roundedPmf
  obtain ⟨h1, h2, h3⟩ := lossLoop_spec upper bound pess lower (outsideMass lower upper 0) []
  obtain ⟨r1, r2, r3⟩ := roundLoop_spec disc pess (lossLoop upper bound pess lower (outsideMass lower upper 0) []).2 []
  refine ⟨fun φ => ?_, r2 (by simp [PyDict.keys]), r3 (h2 (by simp)) (by simp), le_trans ?_ h3⟩
  · simp only []
    rw [r1, show expect ([] : PyDict) φ = 0 from rfl, zero_add, h1, rsum_nil, outsideMass_eq]
    rw [sum_entries hu (outcomes lower upper) (fun o ho => by
          unfold outcomes; rw [Finset.mem_union, List.mem_toFinset, List.mem_toFinset]; exact Or.inr ho) _ (by simp),
      sum_entries hl (outcomes lower upper) (fun o ho => by
          unfold outcomes; rw [Finset.mem_union, List.mem_toFinset, List.mem_toFinset]; exact Or.inl ho) _
          (by simp [entryLoss])]
    rw [zero_add, add_zero, ← Finset.sum_add_distrib]
    rfl
  · rw [outsideMass_eq, zero_add]
    apply List.sum_nonneg
    intro x hx
    obtain ⟨y, _, rfl⟩ := List.mem_map.1 hx
    split_ifs
    · exact expLog_nonneg _
    · exact le_refl _

lemma exact_term (u l e : ℝ) : max 0 (Real.exp u - Real.exp e * Real.exp l) = Real.exp u * hinge (e : EReal) (u - l) := by
  rw [hinge_coe, mul_max_of_nonneg _ _ (Real.exp_pos u).le, mul_zero, mul_sub, mul_one, ← Real.exp_add, ← Real.exp_add]
  congr 3; ring

/-- Bounds for one outcome, `ψ(x) = hinge_e(round(x / h) · h)`. -/
lemma contribution_bounds (lower upper : LogPmf O) (bound : LogProb) {disc : ℝ} (hd : 0 < disc) (e : ℝ) (o : O) :
    (max 0 (prob upper o - Real.exp e * prob lower o) ≤
      contribution lower upper bound true (fun x => hinge (e : EReal) (roundFn true (x / disc) * disc)) o ∧
    contribution lower upper bound true (fun x => hinge (e : EReal) (roundFn true (x / disc) * disc)) o ≤
      max 0 (prob upper o - Real.exp (e - disc) * prob lower o) +
        open Classical in if prob lower o ≠ 0 ∧ LogPmf.get upper o ≤ bound then prob upper o else 0) ∧
    (contribution lower upper bound false (fun x => hinge (e : EReal) (roundFn false (x / disc) * disc)) o ≤
      max 0 (prob upper o - Real.exp e * prob lower o) ∧
    max 0 (prob upper o - Real.exp (e + disc) * prob lower o) ≤
      contribution lower upper bound false (fun x => hinge (e : EReal) (roundFn false (x / disc) * disc)) o +
        open Classical in if prob lower o ≠ 0 ∧ LogPmf.get upper o ≤ bound then prob upper o else 0) := by
  have hP := expLog_nonneg (LogPmf.get upper o)
  unfold contribution prob entryLoss
  cases hl : LogPmf.get lower o using WithBot.recBotCoe with
  | bot => simp [hP]
  | coe l =>
    simp only [WithBot.coe_ne_bot, if_false, zero_add, expLog_coe, ne_eq, Real.exp_ne_zero, not_false_eq_true, true_and]
    by_cases hb : bound < LogPmf.get upper o
    · simp only [if_pos hb, if_neg (not_le.2 hb), add_zero]
      cases hu : LogPmf.get upper o using WithBot.recBotCoe with
      | bot => rw [hu] at hb; simp at hb
      | coe u =>
        simp only [expLog_coe, exact_term]
        have hup : u - l ≤ (⌈(u - l) / disc⌉ : ℝ) * disc := by
          have := Int.le_ceil ((u - l) / disc); rwa [div_le_iff₀ hd] at this
        have hup' : (⌈(u - l) / disc⌉ : ℝ) * disc ≤ u - l + disc := by
          have := (Int.ceil_lt_add_one ((u - l) / disc)).le
          have h2 := mul_le_mul_of_nonneg_right this hd.le
          rw [add_mul, div_mul_cancel₀ _ hd.ne'] at h2; linarith
        have hdn : (⌊(u - l) / disc⌋ : ℝ) * disc ≤ u - l := by
          have := Int.floor_le ((u - l) / disc); rwa [le_div_iff₀ hd] at this
        have hdn' : u - l - disc ≤ (⌊(u - l) / disc⌋ : ℝ) * disc := by
          have := (Int.sub_one_lt_floor ((u - l) / disc)).le
          have h2 := mul_le_mul_of_nonneg_right this hd.le
          rw [sub_mul, div_mul_cancel₀ _ hd.ne'] at h2; linarith
        have he := (Real.exp_pos u).le
        have shift : ∀ x : ℝ, hinge (((e - disc : ℝ)) : EReal) x = hinge (e : EReal) (x + disc) := by
          intro x; rw [hinge_coe, hinge_coe]; congr 3; ring
        have shift' : ∀ x : ℝ, hinge (((e + disc : ℝ)) : EReal) x = hinge (e : EReal) (x - disc) := by
          intro x; rw [hinge_coe, hinge_coe]; congr 3; ring
        refine ⟨⟨?_, ?_⟩, ⟨?_, ?_⟩⟩
        · exact mul_le_mul_of_nonneg_left (hinge_mono _ hup) he
        · rw [shift]; exact mul_le_mul_of_nonneg_left (hinge_mono _ hup') he
        · exact mul_le_mul_of_nonneg_left (hinge_mono _ hdn) he
        · rw [shift']; exact mul_le_mul_of_nonneg_left (hinge_mono _ hdn') he
    · simp only [if_neg hb, if_pos (not_lt.1 hb), if_true]
      have h1 : 0 ≤ Real.exp e * Real.exp l := by positivity
      have h2 : 0 ≤ Real.exp (e - disc) * Real.exp l := by positivity
      have h3 : 0 ≤ Real.exp (e + disc) * Real.exp l := by positivity
      refine ⟨⟨max_le hP (by linarith), ?_⟩, ⟨?_, ?_⟩⟩
      · have := le_max_left 0 (expLog (LogPmf.get upper o) - Real.exp (e - disc) * Real.exp l); linarith
      · simp
      · simp only [Bool.false_eq_true, if_false, zero_add]
        exact max_le hP (by linarith)

end Pld
end Verif

namespace Verif.Pld
open Verif.Spec Verif.PldPmf Verif.PldCommon
variable {O : Type} [DecidableEq O]

/-- What a PMF made by `_create_rounded_probability_mass_function` and `create_pmf` is. -/
structure RoundedSpec (lower upper : LogPmf O) (pe : Bool) (h : ℝ) (bound : LogProb) (m : Pmf) : Prop where
  wf : m.WF
  disc : m.disc = h
  pess : m.pessimistic = pe
  nonneg : m.NonNeg
  sum : ∀ φ : ℤ → ℝ, m.infinityMass + expect m.points φ =
    ∑ o ∈ outcomes lower upper, contribution lower upper bound pe (fun x => φ (roundFn pe (x / h))) o

lemma fromTwoPmfs_spec (lower upper : LogPmf O) (hl : (lower.map Prod.fst).Nodup) (hu : (upper.map Prod.fst).Nodup)
    (pess : Bool) {disc : ℝ} (hd : 0 < disc) (bound : LogProb) (symm : Bool) :
    ∃ p, fromTwoPmfs lower upper pess disc bound symm = .ok p ∧ p.Valid ∧ p.symmetric = symm ∧
      RoundedSpec lower upper pess disc bound p.remove ∧
      (symm = false → RoundedSpec upper lower pess disc bound p.add) := by
  obtain ⟨a1, a2, a3, a4⟩ := roundedPmf_spec lower upper hl hu pess disc bound
  obtain ⟨b1, b2, b3, b4⟩ := roundedPmf_spec upper lower hu hl pess disc bound
  unfold fromTwoPmfs
  cases symm with
  | true =>
    obtain ⟨m, h, h1, h2, h3, h4, h5, h6, _⟩ := createFromRounded_symm
      (inf := (roundedPmf lower upper pess disc bound).1) (pess := pess) a2 hd
    refine ⟨_, by simpa using h, valid_none h1, rfl, ⟨h1, h2, h4, h6 a4 a3, fun φ => ?_⟩, by simp⟩
    change m.infinityMass + expect m.points φ = _
    rw [h3, h5, a1]
  | false =>
    obtain ⟨m, a, h, ⟨h1, h2, h3, h4, h5, h6, _⟩, ⟨g1, g2, g3, g4, g5, g6, _⟩⟩ := createFromRounded_asymm
      (inf := (roundedPmf lower upper pess disc bound).1) (infa := (roundedPmf upper lower pess disc bound).1)
      (pess := pess) a2 b2 hd
    refine ⟨_, by simpa using h, valid_some h1 g1 (by rw [g2, h2]) (by rw [g4, h4]), rfl,
      ⟨h1, h2, h4, h6 a4 a3, fun φ => ?_⟩, fun _ => ⟨g1, g2, g4, g6 b4 b3, fun φ => ?_⟩⟩
    · change m.infinityMass + expect m.points φ = _
      rw [h3, h5, a1]
    · change a.infinityMass + expect a.points φ = _
      rw [g3, g5, b1]

lemma outcomes_comm (a b : LogPmf O) : outcomes a b = outcomes b a := by unfold outcomes; rw [Finset.union_comm]

lemma RoundedSpec.hs_eq {lower upper : LogPmf O} {pess : Bool} {disc : ℝ} {bound : LogProb} {m : Pmf}
    (h : RoundedSpec lower upper pess disc bound m) (e : EReal) : m.hs e =
      ∑ o ∈ outcomes lower upper,
        contribution lower upper bound pess (fun x => hinge e (roundFn pess (x / disc) * disc)) o := by
  unfold Pmf.hs hockeyStick
  rw [h.sum, h.disc]

lemma RoundedSpec.pessimistic_bounds {lower upper : LogPmf O} {disc : ℝ} (hd : 0 < disc) {bound : LogProb} {m : Pmf}
    (h : RoundedSpec lower upper true disc bound m) (e : ℝ) :
    hsFinite (outcomes lower upper) (prob upper) (prob lower) e ≤ m.hs e ∧
    m.hs e ≤ hsFinite (outcomes lower upper) (prob upper) (prob lower) (e - disc) + truncatedMass lower upper bound := by
  rw [h.hs_eq]
  unfold hsFinite truncatedMass
  rw [← Finset.sum_add_distrib]
  exact ⟨Finset.sum_le_sum fun o _ => (contribution_bounds lower upper bound hd e o).1.1,
    Finset.sum_le_sum fun o _ => (contribution_bounds lower upper bound hd e o).1.2⟩

lemma RoundedSpec.optimistic_bounds {lower upper : LogPmf O} {disc : ℝ} (hd : 0 < disc) {bound : LogProb} {m : Pmf}
    (h : RoundedSpec lower upper false disc bound m) (e : ℝ) :
    m.hs e ≤ hsFinite (outcomes lower upper) (prob upper) (prob lower) e ∧
    hsFinite (outcomes lower upper) (prob upper) (prob lower) (e + disc) ≤ m.hs e + truncatedMass lower upper bound := by
  rw [h.hs_eq]
  unfold hsFinite truncatedMass
  rw [← Finset.sum_add_distrib]
  exact ⟨Finset.sum_le_sum fun o _ => (contribution_bounds lower upper bound hd e o).2.1,
    Finset.sum_le_sum fun o _ => (contribution_bounds lower upper bound hd e o).2.2⟩

/-- When every loss lies on the grid nothing is lost by rounding. -/
lemma RoundedSpec.exact {lower upper : LogPmf O} {pess : Bool} {disc : ℝ} (hd : 0 < disc) {m : Pmf}
    (h : RoundedSpec lower upper pess disc ⊥ m)
    (hg : ∀ (o : O) (u l : ℝ), LogPmf.get upper o = (u : LogProb) → LogPmf.get lower o = (l : LogProb) →
      ∃ n : ℤ, u - l = n * disc) (e : ℝ) :
    m.hs e = hsFinite (outcomes lower upper) (prob upper) (prob lower) e := by
  rw [h.hs_eq]
  unfold hsFinite
  refine Finset.sum_congr rfl fun o _ => ?_
  have hP := expLog_nonneg (LogPmf.get upper o)
  unfold contribution prob entryLoss
  cases hl : LogPmf.get lower o using WithBot.recBotCoe with
  | bot => simp [hP]
  | coe l =>
    cases hu : LogPmf.get upper o using WithBot.recBotCoe with
    | bot =>
      have : 0 ≤ Real.exp e * Real.exp l := by positivity
      simp [this]
    | coe u =>
      obtain ⟨n, hn⟩ := hg o u l hu hl
      have hr : roundFn pess ((u - l) / disc) = n := by
        rw [hn, mul_div_assoc, div_self hd.ne', mul_one]; unfold roundFn; simp
      simp only [WithBot.coe_ne_bot, if_false, zero_add, expLog_coe, exact_term, WithBot.bot_lt_coe, if_true]
      rw [hr, ← hn]

lemma RoundedSpec.mass {lower upper : LogPmf O} {disc : ℝ} {bound : LogProb} {m : Pmf}
    (h : RoundedSpec lower upper true disc bound m) :
    totalMass m = ∑ o ∈ outcomes lower upper, prob upper o := by
  unfold totalMass finiteMass
  rw [h.sum]
  refine Finset.sum_congr rfl fun o _ => ?_
  unfold contribution prob entryLoss
  cases hl : LogPmf.get lower o using WithBot.recBotCoe with
  | bot => simp
  | coe l =>
    by_cases hb : bound < LogPmf.get upper o
    · cases hu : LogPmf.get upper o using WithBot.recBotCoe with
      | bot => rw [hu] at hb; simp at hb
      | coe u => rw [hu] at hb; simp [hb]
    · simp [hb]

end Verif.Pld
