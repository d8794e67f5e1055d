import Verif.Proofs.PldEventLaws
import Mathlib.Algebra.Order.Ring.Pow

/-! # One direction of the accountant's PLD covers a multiset of mechanisms -/

namespace Verif.Spec
open MeasureTheory ProbabilityTheory Verif.Pld Verif.PldPmf

/-- `L` dominates all pairs satisfying `C` up to `τ`. -/
def LawNear (τ : ℝ) (L : LossLaw) (C : PairProp) : Prop :=
  ∀ (Ω : Type) [MeasurableSpace Ω] (P Q : Measure Ω) [IsProbabilityMeasure P] [IsProbabilityMeasure Q], C Ω P Q →
    CurveValid P Q fun e => L.hs e + τ

lemma LawFor.near {τ : ℝ} (hτ : 0 ≤ τ) {L : LossLaw} {C : PairProp} (h : LawFor L C) : LawNear τ L C :=
  fun Ω _ P Q _ _ hC e => Indist.mono (h Ω P Q hC e) (by linarith)

/-- The PMF `m` over-approximates a law that is above the composition of laws for the mechanisms `C a`, `a ∈ M`, each up to `τ a`. -/
structure Dir (m : Pmf) (C : DpEvent → PairProp) (τ : DpEvent → ℝ) (M : Multiset DpEvent) : Prop where
  wf : m.WF
  nonneg : m.NonNeg
  pess : m.pessimistic = true
  law : ∃ L : LossLaw, AtLeast m.infinityMass m.disc m.points L ∧ ∃ Ls : List (DpEvent × LossLaw),
    ((Ls.map Prod.fst : List DpEvent) : Multiset DpEvent) = M ∧ (∀ x ∈ Ls, LawNear (τ x.1) x.2 (C x.1)) ∧
      ∀ e, (LossLaw.convAll (Ls.map Prod.snd)).hs e ≤ L.hs e

lemma Dir.curve {m : Pmf} {C : DpEvent → PairProp} {τ : DpEvent → ℝ} (hτ : ∀ a, 0 ≤ τ a) {M : Multiset DpEvent} (h : Dir m C τ M)
    {l : List DpEvent} (hl : (l : Multiset DpEvent) = M) {Ω : Type} [MeasurableSpace Ω] {P Q : Measure Ω}
    (ha : Adaptive (l.map C) Ω P Q) :
    (IsProbabilityMeasure P ∧ IsProbabilityMeasure Q) ∧ CurveValid P Q fun e => m.getDeltaForEpsilon e + (l.map τ).sum := by
  obtain ⟨L, h1, Ls, h2, h3, h4⟩ := h.law
  have hp : l.Perm (Ls.map Prod.fst) := Multiset.coe_eq_coe.1 (hl.trans h2.symm)
  have hf : List.Forall₂ (fun a (x : DpEvent × LossLaw) => x.1 = a ∧ LawNear (τ a) x.2 (C a)) (Ls.map Prod.fst) Ls := by
    clear hp h4 h2
    induction Ls with
    | nil => exact .nil
    | cons x Ls ih =>
      exact .cons ⟨rfl, h3 x (by simp)⟩ (ih fun y hy => h3 y (by simp [hy]))
  obtain ⟨Ls', k1, k2⟩ := List.perm_comp_forall₂ hp hf
  have k3 : List.Forall₂ (fun (x : LossLaw × ℝ) C => LawNear x.2 x.1 C) (Ls'.map fun x => (x.2, τ x.1)) (l.map C) := by
    clear k2 ha hp hl
    induction k1 with
    | nil => exact .nil
    | @cons a x _ _ h _ ih =>
      refine .cons ?_ ih
      have := h.2
      rw [← h.1] at this ⊢
      exact this
  have k4 : (Ls'.map fun x => τ x.1) = l.map τ := by
    clear k2 k3 ha hp hl
    induction k1 with
    | nil => rfl
    | @cons a x _ _ h _ ih => rw [List.map_cons, List.map_cons, ih, h.1]
  obtain ⟨p1, p2, h5⟩ := ha.near _ (fun x hx => by
    obtain ⟨y, _, rfl⟩ := List.mem_map.1 hx
    exact hτ _) k3
  rw [List.map_map, List.map_map, show (Prod.snd ∘ fun x : DpEvent × LossLaw => (x.2, τ x.1)) = fun x => τ x.1 from rfl, k4,
    show (Prod.fst ∘ fun x : DpEvent × LossLaw => (x.2, τ x.1)) = Prod.snd from rfl, convAll_perm (k2.map Prod.snd)] at h5
  refine ⟨⟨p1, p2⟩, fun e S hS => ?_⟩
  have := h5 e S hS
  have h6 := h1.hs_le e
  have h7 := h4 e
  simp only [Pmf.getDelta_eq_hs m h.wf]
  have e : m.hs e = hockeyStick m.infinityMass m.disc m.points e := rfl
  rw [e]; linarith

lemma Dir.ofOk {m : Pmf} {C : DpEvent → PairProp} {τ : DpEvent → ℝ} (hτ : ∀ a, 0 ≤ τ a) {es : List DpEvent} (h : DirOk m (es.map C)) :
    Dir m C τ es := by
  refine ⟨h.wf, h.nonneg, h.pess, ?_⟩
  obtain ⟨Ls, h1, h2⟩ := h.law
  have : ∃ Xs : List (DpEvent × LossLaw), Xs.map Prod.fst = es ∧ Xs.map Prod.snd = Ls ∧ ∀ x ∈ Xs, LawFor x.2 (C x.1) := by
    clear h2 h
    induction es generalizing Ls with
    | nil => cases h1; exact ⟨[], rfl, rfl, by simp⟩
    | cons a es ih =>
      rw [List.map_cons] at h1
      cases h1 with
      | @cons L _ Ls _ hL hr =>
        obtain ⟨Xs, g1, g2, g3⟩ := ih Ls hr
        refine ⟨(a, L) :: Xs, by simp [g1], by simp [g2], fun x hx => ?_⟩
        rcases List.mem_cons.1 hx with rfl | hx
        · exact hL
        · exact g3 x hx
  obtain ⟨Xs, g1, g2, g3⟩ := this
  exact ⟨_, h2, Xs, by rw [g1], fun x hx => (g3 x hx).near (hτ _), fun e => by rw [g2]⟩

lemma Dir.compose {a b c : Pmf} {t : ℝ} {C : DpEvent → PairProp} {τ : DpEvent → ℝ} {M M' : Multiset DpEvent}
    (ha : Dir a C τ M) (hb : Dir b C τ M')
    (hi : b.infinityMass ≤ 1) (h : composePmfs a b t = .ok c) : Dir c C τ (M + M') := by
  have sp := composePmfs_spec h ha.wf hb.wf
  obtain ⟨La, a1, Xa, a2, a3, a4⟩ := ha.law
  obtain ⟨Lb, b1, Xb, b2, b3, b4⟩ := hb.law
  have hnn := sp.nonneg ha.nonneg hb.nonneg
  refine ⟨sp.wf ha.wf hb.wf, ⟨?_, hnn.1⟩, by rw [sp.pess]; exact ha.pess, La.conv Lb, ?_, Xa ++ Xb, ?_, ?_, ?_⟩
  · nlinarith [hnn.2, ha.nonneg.1, hb.nonneg.1]
  · exact AtLeast.compose h ha.wf hb.wf ha.nonneg hb.nonneg ha.pess (Or.inr hi) a1 b1
  · rw [List.map_append, ← Multiset.coe_add, a2, b2]
  · intro x hx
    rcases List.mem_append.1 hx with hx | hx
    · exact a3 x hx
    · exact b3 x hx
  · intro e
    rw [List.map_append, convAll_append]
    exact conv_hs_mono a4 b4 e

lemma Dir.vacuous {m : Pmf} {C : DpEvent → PairProp} {τ : DpEvent → ℝ} (hτ : ∀ a, 0 ≤ τ a) {M : Multiset DpEvent} (h : Dir m C τ M)
    {a : DpEvent} (ha : LawFor LossLaw.zero (C a)) : Dir m C τ (a ::ₘ M) := by
  refine ⟨h.wf, h.nonneg, h.pess, ?_⟩
  obtain ⟨L, h1, Ls, h2, h3, h4⟩ := h.law
  refine ⟨L, h1, (a, LossLaw.zero) :: Ls, ?_, ?_, ?_⟩
  · rw [List.map_cons, ← Multiset.cons_coe, h2]
  · intro x hx
    rcases List.mem_cons.1 hx with rfl | hx
    · exact ha.near (hτ _)
    · exact h3 x hx
  · intro e
    simp only [List.map_cons, LossLaw.convAll]
    rw [zero_conv]
    exact h4 e

/-- The PMF of a single mechanism, with a tiny infinity mass. -/
structure BaseDir (m : Pmf) (τ : ℝ) (C : PairProp) : Prop where
  wf : m.WF
  nonneg : m.NonNeg
  pess : m.pessimistic = true
  inf : m.infinityMass ≤ 1e-22
  law : ∃ L : LossLaw, AtLeast m.infinityMass m.disc m.points L ∧ LawNear τ L C

lemma DirOk.base {m : Pmf} {τ : ℝ} (hτ : 0 ≤ τ) {C : PairProp} (h : DirOk m [C]) (hi : m.infinityMass ≤ 1e-22) : BaseDir m τ C := by
  obtain ⟨Ls, h1, h2⟩ := h.law
  refine ⟨h.wf, h.nonneg, h.pess, hi, ?_⟩
  cases h1 with
  | @cons L _ Ls _ hL hr =>
    cases hr
    have : LossLaw.convAll [L] = L := by
      simp only [LossLaw.convAll]
      rw [conv_comm, zero_conv]
    rw [this] at h2
    exact ⟨L, h2, hL.near hτ⟩

lemma BaseDir.inf_le {m : Pmf} {τ : ℝ} {C : PairProp} (h : BaseDir m τ C) : m.infinityMass ≤ 1 := h.inf.trans (by norm_num)

/-- Self-composition. -/
lemma Dir.selfCompose {m c : Pmf} {nfl : ℕ → ℕ} (hnfl : ∀ k, k ≤ nfl k) {n : ℤ} {C : DpEvent → PairProp} {τ : DpEvent → ℝ} {a : DpEvent}
    (hm : BaseDir m (τ a) (C a)) (hn : n.toNat ≤ 10 ^ 21) (h : m.selfCompose nfl n 1e-15 = .ok c) :
    Dir c C τ (Multiset.replicate n.toNat a) ∧ c.infinityMass ≤ 1 := by
  obtain ⟨-, sp⟩ := Pmf.selfCompose_spec hnfl hm.wf hm.inf_le h
  have hi := hm.inf_le
  have hb : 1 - n.toNat * m.infinityMass ≤ (1 - m.infinityMass) ^ n.toNat := by
    have := one_add_mul_le_pow (a := -m.infinityMass) (by linarith) n.toNat
    rw [← sub_eq_add_neg] at this
    linarith
  have hn' : (n.toNat : ℝ) ≤ 10 ^ 21 := by exact_mod_cast hn
  have up := sp.up hm.nonneg hm.pess (by norm_num) (fun _ => 0) (fun _ _ _ => le_rfl) (fun _ => le_rfl) (fun _ => zero_le_one)
  have e : nfold m.points n.toNat (fun _ => 0) = 0 := by
    rw [← expect_nfoldPts]; simp
  rw [e] at up
  simp only [expect_zero] at up
  have hc : c.infinityMass ≤ 1 := by
    have := up.2
    have h3 : (n.toNat : ℝ) * m.infinityMass ≤ 10 ^ 21 * 1e-22 := mul_le_mul hn' hm.inf hm.nonneg.1 (by positivity)
    norm_num at h3 this hb ⊢
    linarith
  have h0 : 0 ≤ c.infinityMass := by
    have hp1 : (1 - m.infinityMass) ^ n.toNat ≤ 1 := pow_le_one₀ (by linarith) (by linarith [hm.nonneg.1])
    have := up.1
    linarith
  obtain ⟨L, l1, l2⟩ := hm.law
  refine ⟨⟨sp.wf hm.wf, ⟨h0, sp.nonneg hm.nonneg⟩, by rw [sp.pess]; exact hm.pess, L.pow n.toNat,
    AtLeast.selfCompose sp hm.wf hm.nonneg hm.pess (by norm_num) hi l1, List.replicate n.toNat (a, L), ?_, ?_, ?_⟩, hc⟩
  · rw [List.map_replicate, Multiset.coe_replicate]
  · intro x hx
    rw [List.eq_of_mem_replicate hx]; exact l2
  · intro e
    rw [List.map_replicate, ← pow_eq_convAll]

/-! ### Both directions -/

lemma eventSlack_nonneg {disc : ℝ} (a : DpEvent) : 0 ≤ eventSlack disc a := by
  unfold eventSlack
  split
  · refine le_trans ?_ (le_max_right _ _)
    split_ifs
    · positivity
    · exact le_rfl
  · split_ifs
    · exact le_rfl
    · unfold closeSlack; positivity
  · exact le_rfl

variable (disc : ℝ) (nr : NeighborRel)

/-- Both directions of `p` cover the mechanisms described by `M`, in order and swapped. -/
structure Cov (p : Pld) (M : Multiset DpEvent) : Prop where
  valid : p.Valid
  remove : Dir p.remove (PldEventPair nr) (eventSlack disc) M
  add : Dir p.add (fun a => swapProp (PldEventPair nr a)) (eventSlack disc) M

/-- The state of the accountant. -/
def StateCov (p : Pld) (M : Multiset DpEvent) : Prop := M.card ≤ 10 ^ 21 → (∀ a ∈ M, DiscFine disc a) → Cov disc nr p M

/-- A PLD about to be composed. -/
def NewCov (p : Pld) (M : Multiset DpEvent) : Prop :=
  M.card ≤ 10 ^ 21 → (∀ a ∈ M, DiscFine disc a) → Cov disc nr p M ∧ p.remove.infinityMass ≤ 1 ∧ p.add.infinityMass ≤ 1

/-- The result of a constructor. -/
def BaseCov (p : Pld) (a : DpEvent) : Prop :=
  DiscFine disc a → p.Valid ∧ BaseDir p.remove (eventSlack disc a) (PldEventPair nr a) ∧ BaseDir p.add (eventSlack disc a) (swapProp (PldEventPair nr a))

variable {disc nr}

lemma Cov.compose {p q r : Pld} {M M' : Multiset DpEvent} {t : ℝ} (hp : Cov disc nr p M) (hq : Cov disc nr q M') (h1 : q.remove.infinityMass ≤ 1)
    (h2 : q.add.infinityMass ≤ 1) (h : p.compose q t = .ok r) : Cov disc nr r (M + M') := by
  have hv := (Props.C24_compose_valid p q r hp.valid hq.valid t h).2.2.1
  unfold Pld.compose at h
  cases g1 : composePmfs p.remove q.remove t with
  | error e => rw [g1] at h; simp at h
  | ok m =>
    rw [g1] at h
    simp only at h
    by_cases hs : (p.symmetric && q.symmetric) = true
    · rw [if_pos hs] at h
      simp only [Except.ok.injEq] at h
      subst h
      rw [Bool.and_eq_true] at hs
      refine ⟨hv, hp.remove.compose hq.remove h1 g1, ?_⟩
      have ap := hp.add
      have aq := hq.add
      rw [hp.valid.symm hs.1] at ap
      rw [hq.valid.symm hs.2] at aq
      exact ap.compose aq h1 g1
    · rw [if_neg hs] at h
      cases g2 : composePmfs p.add q.add t with
      | error e => rw [g2] at h; simp at h
      | ok a =>
        rw [g2] at h
        simp only [Except.ok.injEq] at h
        subst h
        exact ⟨hv, hp.remove.compose hq.remove h1 g1, hp.add.compose hq.add h2 g2⟩

lemma ProperPld.dirOk {p : Pld} (hp : ProperPld p) {C : PairProp} (h : DominatesAll p C) : DirOk p.remove [C] ∧ DirOk p.add [swapProp C] :=
  ⟨DirOk.mechanism hp.valid.wfRemove hp.nonneg hp.pess hp.mass fun Ω _ P Q _ _ hC => (h Ω P Q hC).1,
    DirOk.mechanism hp.valid.wfAdd hp.nonnegAdd (by rw [hp.valid.pess]; exact hp.pess) hp.massAdd fun Ω _ P Q _ _ hC => (h Ω Q P hC).2⟩

lemma ProperPld.cov {p : Pld} (hp : ProperPld p) {a : DpEvent} (h : DominatesAll p (PldEventPair nr a)) :
    Cov disc nr p {a} ∧ p.remove.infinityMass ≤ 1 ∧ p.add.infinityMass ≤ 1 := by
  obtain ⟨h1, h2⟩ := hp.dirOk h
  exact ⟨⟨hp.valid, Dir.ofOk eventSlack_nonneg (es := [a]) h1, Dir.ofOk eventSlack_nonneg (es := [a]) (C := fun a => swapProp (PldEventPair nr a)) h2⟩, h1.inf, h2.inf⟩

lemma ProperPld.base {p : Pld} (hp : ProperPld p) {a : DpEvent} (h : DominatesAll p (PldEventPair nr a)) (i1 : p.remove.infinityMass ≤ 1e-22)
    (i2 : p.add.infinityMass ≤ 1e-22) :
    p.Valid ∧ BaseDir p.remove (eventSlack disc a) (PldEventPair nr a) ∧ BaseDir p.add (eventSlack disc a) (swapProp (PldEventPair nr a)) := by
  obtain ⟨h1, h2⟩ := hp.dirOk h
  exact ⟨hp.valid, h1.base (eventSlack_nonneg a) i1, h2.base (eventSlack_nonneg a) i2⟩

lemma BaseCov.selfCompose {p r : Pld} {a : DpEvent} {nfl : ℕ → ℕ} (hnfl : ∀ k, k ≤ nfl k) {n : ℤ} (hp : BaseCov disc nr p a) (hn : 1 ≤ n)
    (h : p.selfCompose nfl n 1e-15 = .ok r) : NewCov disc nr r (Multiset.replicate n.toNat a) := by
  intro hc hg
  rw [Multiset.card_replicate] at hc
  obtain ⟨h1, d1, d2⟩ := hp (hg a (Multiset.mem_replicate.2 ⟨by omega, rfl⟩))
  have hv := (Props.C24_self_compose_valid nfl hnfl p r h1 d1.inf_le d2.inf_le n _ h).2.1
  unfold Pld.selfCompose at h
  cases g1 : p.remove.selfCompose nfl n 1e-15 with
  | error e => rw [g1] at h; simp at h
  | ok m =>
    rw [g1] at h
    simp only at h
    have k1 := Dir.selfCompose (C := PldEventPair nr) hnfl d1 hc g1
    by_cases hs : p.symmetric = true
    · rw [if_pos hs] at h
      simp only [Except.ok.injEq] at h
      subst h
      rw [h1.symm hs] at d2
      have k2 := Dir.selfCompose (C := fun a => swapProp (PldEventPair nr a)) hnfl d2 hc g1
      exact ⟨⟨hv, k1.1, k2.1⟩, k1.2, k2.2⟩
    · rw [if_neg hs] at h
      cases g2 : p.add.selfCompose nfl n 1e-15 with
      | error e => rw [g2] at h; simp at h
      | ok b =>
        rw [g2] at h
        simp only [Except.ok.injEq] at h
        subst h
        have k2 := Dir.selfCompose (C := fun a => swapProp (PldEventPair nr a)) hnfl d2 hc g2
        exact ⟨⟨hv, k1.1, k2.1⟩, k1.2, k2.2⟩

lemma cov_identity (hd : 0 < disc) : Cov disc nr (PldLibrary.identity disc) 0 := by
  obtain ⟨m, g, g1, g2, g3, g4, g5, g6, _⟩ := createFromRounded_symm (d := [(0, 1)]) (disc := disc) (inf := 0) (pess := true)
    (by simp [PyDict.keys]) hd
  have := DirOk.identity g1 (g6 le_rfl (by simp)) g4 g3 (fun φ => by rw [g5]; simp [expect])
  unfold PldLibrary.identity Pld.identity
  rw [g]
  exact ⟨valid_none g1, Dir.ofOk eventSlack_nonneg (es := []) this, Dir.ofOk eventSlack_nonneg (es := []) this⟩

end Verif.Spec
