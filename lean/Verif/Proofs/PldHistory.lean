import Verif.Spec.PldHistory
import Verif.Proofs.PldLaw
import Verif.Props.Pld

/-! # Proofs: histories of PLD compositions are sound -/

namespace Verif.Spec
open MeasureTheory ProbabilityTheory Verif.Pld Verif.PldPmf

lemma LossLaw.ext {A B : LossLaw} (h1 : A.inf = B.inf) (h2 : A.μ = B.μ) : A = B := by
  cases A; cases B; simp only at h1 h2; subst h1; subst h2; rfl

lemma zero_conv (A : LossLaw) : LossLaw.zero.conv A = A := by
  apply LossLaw.ext
  · simp [LossLaw.conv, LossLaw.zero]
  · simp [LossLaw.conv, LossLaw.zero]

lemma conv_assoc (A B C : LossLaw) : (A.conv B).conv C = A.conv (B.conv C) := by
  apply LossLaw.ext
  · simp only [LossLaw.conv]; ring
  · exact Measure.conv_assoc _ _ _

lemma convAll_append (l l' : List LossLaw) : LossLaw.convAll (l ++ l') = (LossLaw.convAll l).conv (LossLaw.convAll l') := by
  induction l with
  | nil => exact (zero_conv _).symm
  | cons a l ih => simp only [List.cons_append, LossLaw.convAll, ih, conv_assoc]

lemma convAll_replicate_flatten (l : List LossLaw) (n : ℕ) :
    LossLaw.convAll (List.replicate n l).flatten = (LossLaw.convAll l).pow n := by
  induction n with
  | zero => rfl
  | succ n ih => rw [List.replicate_succ, List.flatten_cons, convAll_append, ih]; rfl

/-- `L` dominates all pairs satisfying `C`, in order or swapped. -/
def LawFor (L : LossLaw) (C : PairProp) : Prop :=
  ∀ (Ω : Type) [MeasurableSpace Ω] (P Q : Measure Ω) [IsProbabilityMeasure P] [IsProbabilityMeasure Q], C Ω P Q → L.Dominates P Q

def swapProp (C : PairProp) : PairProp := fun Ω [MeasurableSpace Ω] P Q => C Ω Q P

lemma Adaptive.swap {l : List PairProp} {Ω : Type} [MeasurableSpace Ω] {P Q : Measure Ω} (h : Adaptive l Ω P Q) :
    Adaptive (l.map swapProp) Ω Q P := by
  induction h with
  | nil P => exact .nil P
  | cons P Q κ η hC hl ih => exact .cons Q P η κ hC ih

lemma forall₂_replicate_flatten {α β : Type*} {R : α → β → Prop} {l : List α} {l' : List β} (h : List.Forall₂ R l l') (n : ℕ) :
    List.Forall₂ R (List.replicate n l).flatten (List.replicate n l').flatten := by
  induction n with
  | zero => exact .nil
  | succ n ih => simp only [List.replicate_succ, List.flatten_cons]; exact List.rel_append h ih

lemma map_replicate_flatten {α β : Type*} (f : α → β) (l : List α) (n : ℕ) :
    (List.replicate n l).flatten.map f = (List.replicate n (l.map f)).flatten := by
  induction n with
  | zero => rfl
  | succ n ih => simp [List.replicate_succ, ih]

/-- What holds for a direction of every PLD of a history. -/
structure DirOk (m : Pmf) (l : List PairProp) : Prop where
  wf : m.WF
  nonneg : m.NonNeg
  pess : m.pessimistic = true
  inf : m.infinityMass ≤ 1
  law : ∃ Ls : List LossLaw, List.Forall₂ LawFor Ls l ∧ AtLeast m.infinityMass m.disc m.points (LossLaw.convAll Ls)

lemma DirOk.identity {m : Pmf} (hw : m.WF) (hn : m.NonNeg) (hp : m.pessimistic = true) (hi : m.infinityMass = 0)
    (he : ∀ φ, expect m.points φ = φ 0) : DirOk m [] := by
  refine ⟨hw, hn, hp, by rw [hi]; norm_num, [], .nil, ?_⟩
  intro φ _ _ _
  rw [hi, he]
  simp [LossLaw.convAll, LossLaw.zero]

lemma DirOk.mechanism {m : Pmf} {C : PairProp} (hw : m.WF) (hn : m.NonNeg) (hp : m.pessimistic = true) (hm : totalMass m = 1)
    (h : ∀ (Ω : Type) [MeasurableSpace Ω] (P Q : Measure Ω) [IsProbabilityMeasure P] [IsProbabilityMeasure Q], C Ω P Q →
      CurveValid P Q (fun e => m.getDeltaForEpsilon e)) : DirOk m [C] := by
  obtain ⟨L, h1, h2⟩ := exists_law m.infinityMass m.disc m.points hn.1 hn.2 hm
  refine ⟨hw, hn, hp, ?_, [L], .cons ?_ .nil, ?_⟩
  · have : 0 ≤ finiteMass m.points := by
      unfold finiteMass
      exact expect_nonneg hn.2 fun _ _ => by norm_num
    unfold totalMass at hm
    linarith
  · intro Ω _ P Q _ _ hC e
    rw [h2]
    have := h Ω P Q hC e
    simp only [Pmf.getDelta_eq_hs m hw] at this
    exact this
  · have : LossLaw.convAll [L] = L := by
      simp only [LossLaw.convAll]
      rw [conv_comm, zero_conv]
    rw [this]; exact h1

lemma DirOk.compose {a b c : Pmf} {t : ℝ} {l l' : List PairProp} (ha : DirOk a l) (hb : DirOk b l')
    (h : composePmfs a b t = .ok c) (hi : t ≠ 0 → c.infinityMass ≤ 1) : DirOk c (l ++ l') := by
  have sp := composePmfs_spec h ha.wf hb.wf
  obtain ⟨La, ha1, ha2⟩ := ha.law
  obtain ⟨Lb, hb1, hb2⟩ := hb.law
  have hnn := sp.nonneg ha.nonneg hb.nonneg
  have hi0 : 0 ≤ c.infinityMass ∧ c.infinityMass ≤ 1 := by
    refine ⟨?_, ?_⟩
    · have := sp.up ha.nonneg hb.nonneg ha.pess (fun _ => 0) (fun _ _ _ => le_rfl) (fun _ => le_rfl) (fun _ => zero_le_one)
      simp only [expect_zero, convE] at this
      nlinarith [this.1, ha.inf, hb.inf, ha.nonneg.1, hb.nonneg.1]
    · by_cases ht : t = 0
      · rw [sp.exact_inf ht]
        nlinarith [ha.inf, hb.inf, ha.nonneg.1, hb.nonneg.1]
      · exact hi ht
  refine ⟨sp.wf ha.wf hb.wf, ?_, by rw [sp.pess]; exact ha.pess, hi0.2, La ++ Lb, List.rel_append ha1 hb1, ?_⟩
  · exact ⟨hi0.1, hnn.1⟩
  · rw [convAll_append]
    exact AtLeast.compose h ha.wf hb.wf ha.nonneg hb.nonneg ha.pess (Or.inl ha.inf) ha2 hb2

lemma DirOk.selfCompose {m c : Pmf} {nfl : ℕ → ℕ} (hnfl : ∀ k, k ≤ nfl k) {n : ℤ} {t : ℝ} {l : List PairProp}
    (hm : DirOk m l) (h : m.selfCompose nfl n t = .ok c) (ht : 0 ≤ t) (hi : t ≠ 0 → c.infinityMass ≤ 1) :
    DirOk c (List.replicate n.toNat l).flatten := by
  obtain ⟨hn, sp⟩ := Pmf.selfCompose_spec hnfl hm.wf hm.inf h
  obtain ⟨Ls, h1, h2⟩ := hm.law
  have hp : 0 ≤ (1 - m.infinityMass) ^ n.toNat := pow_nonneg (by linarith [hm.inf]) _
  have hp1 : (1 - m.infinityMass) ^ n.toNat ≤ 1 := pow_le_one₀ (by linarith [hm.inf]) (by linarith [hm.nonneg.1])
  have h0 : 0 ≤ c.infinityMass := by
    have := (sp.up hm.nonneg hm.pess ht (fun _ => 0) (fun _ _ _ => le_rfl) (fun _ => le_rfl) (fun _ => zero_le_one)).1
    have e : nfold m.points n.toNat (fun _ => 0) = 0 := by
      rw [← expect_nfoldPts]; simp
    rw [e] at this
    simp only [expect_zero] at this
    linarith
  refine ⟨sp.wf hm.wf, ⟨h0, sp.nonneg hm.nonneg⟩, by rw [sp.pess]; exact hm.pess, ?_, _, forall₂_replicate_flatten h1 _, ?_⟩
  · by_cases h : t = 0
    · rw [sp.exact_inf h]; linarith
    · exact hi h
  · rw [convAll_replicate_flatten]
    exact AtLeast.selfCompose sp hm.wf hm.nonneg hm.pess ht hm.inf h2

lemma DirOk.curve {m : Pmf} {l : List PairProp} (h : DirOk m l) {Ω : Type} [MeasurableSpace Ω] {P Q : Measure Ω}
    (ha : Adaptive l Ω P Q) : CurveValid P Q fun e => m.getDeltaForEpsilon e := by
  obtain ⟨Ls, h1, h2⟩ := h.law
  obtain ⟨_, _, h3⟩ := ha.dominates Ls h1
  intro e S hS
  have := h3 e S hS
  have h4 := h2.hs_le e
  simp only [Pmf.getDelta_eq_hs m h.wf]
  have e : m.hs e = hockeyStick m.infinityMass m.disc m.points e := rfl
  rw [e]; linarith

/-- Both directions of every PLD of a history. -/
theorem PldHistory.dirs {nfl : ℕ → ℕ} (hnfl : ∀ k, k ≤ nfl k) {l : List PairProp} {p : Pld} (h : PldHistory nfl l p) :
    p.Valid ∧ DirOk p.remove l ∧ DirOk p.add (l.map swapProp) := by
  induction h with
  | @identity disc p hd h =>
    obtain ⟨m, g, g1, g2, g3, g4, g5, g6, _⟩ := createFromRounded_symm (d := [(0, 1)]) (disc := disc) (inf := 0) (pess := true)
      (by simp [PyDict.keys]) hd
    unfold Pld.identity at h
    rw [g] at h
    simp only [Except.ok.injEq] at h
    subst h
    have := DirOk.identity g1 (g6 le_rfl (by simp)) g4 g3 (fun φ => by rw [g5]; simp [expect])
    exact ⟨valid_none g1, this, this⟩
  | mechanism hp h =>
    refine ⟨hp.valid, DirOk.mechanism hp.valid.wfRemove hp.nonneg hp.pess hp.mass fun Ω _ P Q _ _ hC => (h Ω P Q hC).1,
      DirOk.mechanism hp.valid.wfAdd hp.nonnegAdd (by rw [hp.valid.pess]; exact hp.pess) hp.massAdd
        fun Ω _ P Q _ _ hC => (h Ω Q P hC).2⟩
  | @compose l l' p q r t _ _ h hi ihp ihq =>
    obtain ⟨vp, rp, ap⟩ := ihp
    obtain ⟨vq, rq, aq⟩ := ihq
    have hv := (Props.C24_compose_valid p q r vp vq t h).2.2.1
    unfold Pld.compose at h
    cases h1 : composePmfs p.remove q.remove t with
    | error e => rw [h1] at h; simp at h
    | ok m =>
      rw [h1] at h
      simp only at h
      by_cases hs : (p.symmetric && q.symmetric) = true
      · rw [if_pos hs] at h
        simp only [Except.ok.injEq] at h
        subst h
        rw [Bool.and_eq_true] at hs
        refine ⟨hv, rp.compose rq h1 fun ht => (hi ht).1, ?_⟩
        rw [List.map_append]
        rw [vp.symm hs.1] at ap
        rw [vq.symm hs.2] at aq
        exact ap.compose aq h1 fun ht => (hi ht).1
      · rw [if_neg hs] at h
        cases h2 : composePmfs p.add q.add t with
        | error e => rw [h2] at h; simp at h
        | ok a =>
          rw [h2] at h
          simp only [Except.ok.injEq] at h
          subst h
          rw [List.map_append]
          exact ⟨hv, rp.compose rq h1 fun ht => (hi ht).1, ap.compose aq h2 fun ht => (hi ht).2⟩
  | @selfCompose l p r n t _ ht h hi ih =>
    obtain ⟨vp, rp, ap⟩ := ih
    have hv := (Props.C24_self_compose_valid nfl hnfl p r vp rp.inf ap.inf n t h).2.1
    unfold Pld.selfCompose at h
    rw [map_replicate_flatten]
    cases h1 : p.remove.selfCompose nfl n t with
    | error e => rw [h1] at h; simp at h
    | ok m =>
      rw [h1] at h
      simp only at h
      by_cases hs : p.symmetric = true
      · rw [if_pos hs] at h
        simp only [Except.ok.injEq] at h
        subst h
        refine ⟨hv, rp.selfCompose hnfl h1 ht fun ht => (hi ht).1, ?_⟩
        rw [vp.symm hs] at ap
        exact ap.selfCompose hnfl h1 ht fun ht => (hi ht).1
      · rw [if_neg hs] at h
        cases h2 : p.add.selfCompose nfl n t with
        | error e => rw [h2] at h; simp at h
        | ok a =>
          rw [h2] at h
          simp only [Except.ok.injEq] at h
          subst h
          exact ⟨hv, rp.selfCompose hnfl h1 ht fun ht => (hi ht).1, ap.selfCompose hnfl h2 ht fun ht => (hi ht).2⟩

end Verif.Spec
