import Verif.Proofs.RdpAtoms
import Verif.Proofs.PldHistory
import Verif.Proofs.PldEventLaws
import Verif.Props.RepeatSelect

/-!
# `RepeatAndSelect` events in the RDP accountant
-/

namespace Verif.Props
open Verif Verif.Spec Verif.Rdp MeasureTheory ProbabilityTheory

variable {n : ℕ}

lemma wfCounts_mem {e a : DpEvent} (h : WfCounts e) (ha : a ∈ expand e) : WfCounts a := by
  let F : RdpFns 0 := ⟨fun _ _ => .error .valueError, fun _ _ => .error .valueError, fun _ _ => .error .valueError, fun _ => .error .valueError,
    fun _ _ _ => .error .valueError, fun _ _ _ => .error .valueError⟩
  exact RdpAccountant.wf_of_mem F ⟨fun _ _ _ _ i => i.elim0, fun _ _ _ _ i => i.elim0, fun _ _ _ _ i => i.elim0, fun _ _ _ i => i.elim0,
    fun _ _ _ _ _ _ i => i.elim0, fun _ _ _ _ _ i => i.elim0⟩ e h a ha

lemma Adaptive.prob {l : List PairProp} {Ω : Type} [MeasurableSpace Ω] {P Q : Measure Ω} (h : Adaptive l Ω P Q) :
    IsProbabilityMeasure P ∧ IsProbabilityMeasure Q := by
  induction h with
  | nil P => exact ⟨inferInstance, inferInstance⟩
  | cons P Q κ η hC _ _ => exact ⟨inferInstance, inferInstance⟩

lemma adaptive_symm {l : List PairProp} (hl : ∀ C ∈ l, ∀ (Ω : Type) [MeasurableSpace Ω] (P Q : Measure Ω), C Ω P Q → C Ω Q P)
    {Ω : Type} [MeasurableSpace Ω] {P Q : Measure Ω} (h : Adaptive l Ω P Q) : Adaptive l Ω Q P := by
  refine (Verif.Spec.Adaptive.swap h).mono ?_
  rw [List.forall₂_map_left_iff, List.forall₂_same]
  intro C hC Ω _ P Q _ _ hCP
  exact hl C hC Ω _ _ hCP

lemma samePair_symm {Ω : Type} [MeasurableSpace Ω] {P Q : Measure Ω} (h : SamePair Ω P Q) : SamePair Ω Q P := by cases h; exact .mk _

/-- Neighbourhood is symmetric. -/
lemma eventPair_symm (nr : NeighborRel) : ∀ (N : ℕ) (e : DpEvent), sizeOf e < N → ∀ (Ω : Type) [MeasurableSpace Ω] (P Q : Measure Ω),
    EventPair nr e Ω P Q → EventPair nr e Ω Q P := by
  intro N
  induction N with
  | zero => intro e h; exact absurd h (Nat.not_lt_zero _)
  | succ N ih =>
    intro e hN Ω _ P Q h
    cases e with
    | gaussian z =>
      simp only [EventPair] at h ⊢
      by_cases hz : z.val = ⊤
      · rw [if_pos hz] at h ⊢; exact samePair_symm h
      · rw [if_neg hz] at h ⊢; exact Verif.Mech.GaussianPair.swap h
    | laplace z =>
      simp only [EventPair] at h ⊢
      by_cases hz : z.val = ⊤
      · rw [if_pos hz] at h ⊢; exact samePair_symm h
      · rw [if_neg hz] at h ⊢
        cases h with
        | mk a b Δ hΔ h => exact .mk b a Δ hΔ (by simpa [abs_sub_comm] using h)
    | poissonSampled q e =>
      rw [EventPair] at h ⊢
      cases h with
      | remove f Δ hΔ hf D r hr => exact .add f Δ hΔ hf D r hr
      | add f Δ hΔ hf D r hr => exact .remove f Δ hΔ hf D r hr
    | sampledWithoutReplacement k m e =>
      rw [EventPair] at h ⊢
      cases h with
      | mk f Δ hΔ hf D i x =>
        have := WorGaussiansPair.mk (n := k.toNat) (m := m.toNat) f Δ hΔ hf (Function.update D i x) i (D i)
        rwa [Function.update_idem, Function.update_eq_self] at this
    | singleEpochTreeAggregation z s =>
      simp only [EventPair] at h ⊢
      by_cases hz : z.val = ⊤
      · rw [if_pos hz] at h ⊢; exact samePair_symm h
      · rw [if_neg hz] at h ⊢
        cases h with
        | mk l hl hn T₀ t₀ P Q h =>
          refine .mk l hl hn T₀ t₀ Q P (adaptive_symm ?_ h)
          intro C hC Ω _ P Q hp
          obtain ⟨v, -, rfl⟩ := List.mem_map.1 hC
          split_ifs at hp ⊢
          · exact Verif.Mech.GaussianPair.swap hp
          · exact samePair_symm hp
    | randomizedResponse p k =>
      simp only [EventPair] at h ⊢
      by_cases hz : nr = .replaceOne
      · rw [if_pos hz] at h ⊢
        cases h with
        | mk x y => exact .mk y x
      · rw [if_neg hz] at h ⊢
        cases h with
        | toSpecial x => exact .ofSpecial x
        | ofSpecial x => exact .toSpecial x
    | repeatAndSelect e m s =>
      rw [EventPair] at h ⊢
      have key : ∀ (Ω : Type) [MeasurableSpace Ω] (P Q : Measure Ω), Adaptive ((expand e).attach.map fun a => EventPair nr a.1) Ω P Q →
          Adaptive ((expand e).attach.map fun a => EventPair nr a.1) Ω Q P := by
        intro Ω _ P Q h
        refine adaptive_symm ?_ h
        intro C hC Ω _ P Q hp
        obtain ⟨a, -, rfl⟩ := List.mem_map.1 hC
        refine ih a.1 ?_ Ω P Q hp
        have := expand_size e a.1 a.2
        simp at hN
        omega
      cases h with
      | tnb P Q hC score hs γ h0 h1 hγ hsh => exact .tnb Q P (key _ _ _ hC) score hs γ h0 h1 hγ hsh
      | poisson P Q hC score hs hsh => exact .poisson Q P (key _ _ _ hC) score hs hsh
    | noOp | nonPrivate | unsupported | selfComposed | composed | sampledWithReplacement | mixtureOfGaussians =>
      simp only [EventPair] at h ⊢
      exact trivial

/-- An event: given the bounds for the elementary events it stands for. -/
lemma sequence_sound {F : RdpFns n} {nr : NeighborRel} {orders : Fin n → ℝ} (ho : ∀ i, 1 ≤ orders i) (l : List DpEvent)
    (hl : ∀ a ∈ l, ∀ (i : Fin n) (Ω : Type) [MeasurableSpace Ω] (P Q : Measure Ω) [IsProbabilityMeasure P] [IsProbabilityMeasure Q],
      EventPair nr a Ω P Q → renyiDiv (orders i) P Q ≤ RdpAccountant.curve F nr a i) {Ω : Type} [MeasurableSpace Ω] (P Q : Measure Ω)
    (h : Adaptive (l.map (EventPair nr)) Ω P Q) (i : Fin n) :
    renyiDiv (orders i) P Q ≤ (l.map fun a => RdpAccountant.curve F nr a i).sum := by
  refine C37_sequence (orders i) (ho i) (l.map fun a => RdpAccountant.curve F nr a i) P Q (h.mono ?_)
  rw [List.map_map, List.forall₂_map_left_iff, List.forall₂_map_right_iff, List.forall₂_same]
  intro a ha Ω _ P Q _ _ hpair
  exact ⟨inferInstance, inferInstance, hl a ha i Ω P Q hpair⟩

lemma sum_apply (l : List DpEvent) (f : DpEvent → Arr n) (i : Fin n) : (l.map f).sum i = (l.map fun a => f a i).sum := by
  induction l with
  | nil => rfl
  | cons a l ih => rw [List.map_cons, List.sum_cons, Pi.add_apply, ih, List.map_cons, List.sum_cons]

lemma real_of_ne_top {z : PyNum} (h : z.val ≠ ⊤) : z.real? = some z.val.toReal := by
  cases z with
  | int n => simp [PyNum.real?, PyNum.val]
  | float y => simp [PyNum.real?, PyNum.val]
  | inf => simp [PyNum.val] at h

lemma none_of_top {z : PyNum} (h : z.val = ⊤) : z = .inf := by
  cases z with
  | int n => simp [PyNum.val] at h
  | float y => simp [PyNum.val] at h
  | inf => rfl

/-- The numeric functions of the library, with the given function for fractional orders. -/
noncomputable abbrev libFns (orders : Fin n → ℝ) (frac : ℝ → PyNum → ℝ → EReal) : RdpFns n :=
  fns (fun i => (orders i : EReal)) frac (wor fun i => (orders i : EReal)) fun a m s => RepeatSelect.repeatAndSelect orders a m s

/-- **One event.** The value that the accountant adds for one elementary event is an upper bound on the Rényi divergence of every
mechanism that the event describes. -/
theorem atom_sound (orders : Fin n → ℝ) (ho : ∀ i, 1 ≤ orders i) (frac : ℝ → PyNum → ℝ → EReal) (hfrac : FracBound frac) (nr : NeighborRel) :
    ∀ (N : ℕ) (e : DpEvent), sizeOf e < N → RdpAccountant.Elementary e → WfCounts e → Covered e → RdpAccountant.Ok (libFns orders frac) nr e →
    ∀ (i : Fin n) (Ω : Type) [MeasurableSpace Ω] (P Q : Measure Ω) [IsProbabilityMeasure P] [IsProbabilityMeasure Q],
      EventPair nr e Ω P Q → renyiDiv (orders i) P Q ≤ RdpAccountant.curve (libFns orders frac) nr e i := by
  intro N
  induction N with
  | zero => intro e h; exact absurd h (Nat.not_lt_zero _)
  | succ N ih =>
    intro e hN he hw hc hok i Ω _ P Q _ _ h
    by_cases hrep : ∀ e' m s, e ≠ .repeatAndSelect e' m s
    · exact atom_sound_base orders frac _ nr e i (.inr hfrac) he hc hrep hok (ho i) P Q h
    push Not at hrep
    obtain ⟨e', mean, shape, rfl⟩ := hrep
    set F := libFns orders frac with hF
    rw [WfCounts] at hw
    rw [Covered] at hc
    rw [EventPair] at h
    unfold RdpAccountant.Ok at hok
    unfold RdpAccountant.curve
    simp only [RdpAccountant.maybeCompose, if_true] at hok ⊢
    have hspec := RdpAccountant.real_spec F nr e' hw 1 le_rfl (fun _ => 0)
    have hokc := RdpAccountant.real_ok F nr e' hw 1 le_rfl (fun _ => 0)
    set R := RdpAccountant.maybeCompose F nr e' 1 true (fun _ => 0) with hR
    obtain ⟨inner, res⟩ := R
    rcases res with err | c
    · simp at hok
    rcases c with _ | c
    swap
    · simp at hok
    simp only at hok ⊢
    cases hr : F.repeatAndSelect inner mean shape with
    | error err => rw [hr] at hok; simp at hok
    | ok out =>
      rw [hr] at hok
      simp only
      have hr' : RepeatSelect.repeatAndSelect orders inner mean shape = .ok out := hr
      have hok' := hokc.1 rfl
      have hin : ∀ j, inner j = ((expand e').map fun a => RdpAccountant.curve F nr a j).sum := by
        intro j
        have := congrFun (hspec rfl) j
        simp only [Int.toNat_one, one_smul, Pi.add_apply, zero_add] at this
        rw [this, sum_apply]
      have key : ∀ (Ω : Type) [MeasurableSpace Ω] (P Q : Measure Ω), Adaptive ((expand e').attach.map fun a => EventPair nr a.1) Ω P Q →
          ∀ j, renyiDiv (orders j) P Q ≤ inner j := by
        intro Ω _ P Q hA j
        rw [hin j]
        have hA' : Adaptive ((expand e').map (EventPair nr)) Ω P Q := by
          have e0 : ((expand e').attach.map fun a => EventPair nr a.1) = (expand e').map (EventPair nr) := by
            rw [← List.attach_map_subtype_val (expand e'), List.map_map]
            simp
          rwa [e0] at hA
        refine sequence_sound ho (expand e') (fun a ha => ?_) P Q hA' j
        refine ih a ?_ (RdpAccountant.elementary_of_mem _ _ ha) (wfCounts_mem hw ha) (hc.1 a ha) (hok' a ha)
        have := expand_size e' a ha
        simp at hN
        omega
      have hsym : ∀ (Ω : Type) [MeasurableSpace Ω] (P Q : Measure Ω), Adaptive ((expand e').attach.map fun a => EventPair nr a.1) Ω P Q →
          Adaptive ((expand e').attach.map fun a => EventPair nr a.1) Ω Q P := by
        intro Ω _ P Q h
        refine adaptive_symm ?_ h
        intro C hC Ω _ P Q hp
        obtain ⟨a, -, rfl⟩ := List.mem_map.1 hC
        exact eventPair_symm nr _ a.1 (Nat.lt_succ_self _) Ω P Q hp
      have hout : (((1 : ℤ) : ℝ) : EReal) * out i + 0 = out i := by simp
      rw [hout]
      cases h with
      | tnb P Q hC score hs γ h0 h1 hγ hsh =>
        obtain ⟨hp, hq⟩ := Adaptive.prob hC
        have hsr := real_of_ne_top hsh
        have hmr : mean.val ≠ ⊤ := by
          intro hm
          obtain ⟨g, m, -, hm', -⟩ := RepeatSelect.repeatAndSelect_tnb orders hsr hr'
          rw [none_of_top hm] at hm'
          simp [PyNum.real?] at hm'
        have hex := hc.2.resolve_left hsh
        exact C66_repeat_select_sound orders ho inner out mean shape _ _ γ hsr (real_of_ne_top hmr) hex hr' h0 h1 hγ score hs P Q
          (key _ _ _ hC) (key _ _ _ (hsym _ _ _ hC)) i
      | poisson P Q hC score hs hsh =>
        obtain ⟨hp, hq⟩ := Adaptive.prob hC
        rw [none_of_top hsh] at hr'
        by_cases hm : mean.val = ⊤
        · have hm := none_of_top hm
          subst hm
          unfold RepeatSelect.repeatAndSelect at hr'
          rw [if_neg (by simp [PyNum.val]), if_neg (by simp [PyNum.val])] at hr'
          have := collect_ok (show collect (RepeatSelect.poissonEntry orders inner .inf) = .ok out from hr') i
          unfold RepeatSelect.poissonEntry at this
          split_ifs at this with h1
          · rw [← Except.ok.inj this]; exact le_top
          · split at this
            · cases this
            · rw [← Except.ok.inj this]; exact le_top
        · exact C66_repeat_select_poisson orders inner out mean _ (real_of_ne_top hm) hr' score hs P Q
            (key _ _ _ hC) (key _ _ _ (hsym _ _ _ hC)) i

end Verif.Props
