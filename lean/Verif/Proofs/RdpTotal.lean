import Verif.Spec.RdpValid
import Verif.Proofs.RdpSelect
import Verif.Proofs.RdpFracSlack
import Verif.Props.RepeatSelect
import Verif.Props.SampledWithoutReplacement
import Verif.Props.EffNoise

/-!
# The RDP accountant accepts events with parameters in range
-/

namespace Verif.RdpAccountant
open Verif Verif.Spec
variable {n : ℕ} (F : RdpFns n) (nr : NeighborRel)

mutual
/-- The dry run reports no error when the real run succeeds. -/
theorem dry_of_real : ∀ (e : DpEvent) (c c' : ℤ) (s s' : Arr n), (maybeCompose F nr e c true s).2 = .ok none →
    (maybeCompose F nr e c' false s').2 = .ok none
  | .noOp, _, _, _, _, _ => by simp [maybeCompose]
  | .nonPrivate, _, _, _, _, _ => by simp [maybeCompose]
  | .unsupported, _, _, _, _, h => by simp [maybeCompose] at h
  | .sampledWithReplacement _ _ _, _, _, _, _, h => by simp [maybeCompose] at h
  | .mixtureOfGaussians _ _ _, _, _, _, _, h => by simp [maybeCompose] at h
  | .selfComposed e m, c, c', s, s', h => by
      simp only [maybeCompose] at h ⊢
      exact dry_of_real e _ _ _ _ h
  | .composed es, c, c', s, s', h => by
      simp only [maybeCompose] at h ⊢
      exact dryList_of_real es _ _ _ _ h
  | .gaussian z, c, c', s, s', _ => by simp [maybeCompose]
  | .laplace z, c, c', s, s', _ => by simp [maybeCompose]
  | .randomizedResponse p k, c, c', s, s', h => by
      simp only [maybeCompose] at h ⊢
      split at h
      · rename_i hh; simp [hh]
      · simp at h
  | .singleEpochTreeAggregation p k, c, c', s, s', h => by
      simp only [maybeCompose] at h ⊢
      split at h
      · rename_i hh; simp [hh]
      · simp at h
  | .poissonSampled q e, c, c', s, s', h => by
      simp only [maybeCompose] at h ⊢
      split at h
      · rename_i hh
        simp only [hh, if_true]
        cases hr : effNoise e with
        | error err => simp [hr] at h
        | ok v => cases v <;> simp [hr] at h ⊢
      · simp at h
  | .sampledWithoutReplacement sz m e, c, c', s, s', h => by
      simp only [maybeCompose] at h ⊢
      split at h
      · rename_i hh
        simp only [hh, if_true]
        cases hr : effNoise e with
        | error err => simp [hr] at h
        | ok v => cases v <;> simp [hr] at h ⊢
      · simp at h
  | .repeatAndSelect e m sh, c, c', s, s', h => by
      simp only [maybeCompose, if_true] at h
      have h1 := dry_of_real e 1 1 (fun _ => 0) s'
      simp only [maybeCompose, Bool.false_eq_true, if_false]
      generalize maybeCompose F nr e 1 true (fun _ => 0) = r at *
      obtain ⟨a, r⟩ := r
      match r, h1, h with
      | .error err, _, h => simp at h
      | .ok (some d'), _, h => simp at h
      | .ok none, h1, _ => exact h1 rfl
theorem dryList_of_real : ∀ (es : List DpEvent) (c c' : ℤ) (s s' : Arr n), (composeList F nr es c true s).2 = .ok none →
    (composeList F nr es c' false s').2 = .ok none
  | [], _, _, _, _, _ => by simp [composeList]
  | e :: es, c, c', s, s', h => by
      simp only [composeList] at h ⊢
      have h1 := dry_of_real e c c' s s'
      generalize maybeCompose F nr e c true s = r at *
      obtain ⟨a, r⟩ := r
      match r, h1, h with
      | .error err, _, h => simp at h
      | .ok (some d'), _, h => simp at h
      | .ok none, h1, h =>
        have h1 := h1 rfl
        generalize maybeCompose F nr e c' false s' = r at *
        obtain ⟨a', r⟩ := r
        simp only at h1
        subst h1
        exact dryList_of_real es c c' a a' h
end

end Verif.RdpAccountant

namespace Verif.Spec
open Verif Verif.Rdp Verif.Props Verif.RepeatSelect

section
variable {k : ℕ} {orders : Fin k → ℝ} {frac : ℝ → PyNum → ℝ → EReal} {nr : NeighborRel}

lemma collect_total {f : Fin k → Except Err EReal} (h : ∀ i, ∃ r, f i = .ok r) : ∃ a, collect f = .ok a := by
  choose r hr using h
  exact ⟨r, collect_of_ok hr⟩

lemma poissonGaussian_total (ho : ∀ i, 1 < orders i) {q z : PyNum} (hq0 : 0 ≤ q.val) (hq1 : q.val ≤ 1) (hz : 0 ≤ z.val) :
    ∃ a, poissonGaussian frac (fun i => (orders i : EReal)) q (.num z) = .ok a := by
  rw [poissonGaussian, if_neg (not_not.2 ⟨hq0, hq1⟩), if_neg (not_lt.2 hz)]
  refine collect_total fun i => ?_
  unfold poissonOneOrder
  split_ifs with c1 c2 c3 c4
  · exact ⟨_, rfl⟩
  · exact ⟨_, rfl⟩
  · exact ⟨_, rfl⟩
  · have : orders i = 1 := by exact_mod_cast c4
    exact absurd this (ho i).ne'
  · exact ⟨_, rfl⟩

lemma addTo_total {v : Except Err (Arr k)} (h : ∃ a, v = .ok a) (s : Arr k) (c : ℤ) : (RdpAccountant.addTo s c v).2 = .ok none := by
  obtain ⟨a, rfl⟩ := h
  rfl

lemma laplace_total (ho : ∀ i, 1 < orders i) {eps : ℝ} (he : 0 ≤ eps) : ∃ a, (collect fun i => laplaceRdp eps (orders i : EReal)) = .ok a := by
  refine collect_total fun i => ?_
  unfold laplaceRdp
  rw [if_neg (not_lt.2 he), if_neg]
  · dsimp only
    split_ifs
    · exact ⟨_, rfl⟩
    · exact ⟨_, rfl⟩
    · exact ⟨_, rfl⟩
  · push Not
    exact ⟨EReal.coe_ne_top _, by exact_mod_cast (ho i).le⟩

lemma recip_total {z : PyNum} (hz : 0 < z.val) : ∃ x, RdpAccountant.recip z = .ok x ∧ 0 ≤ x := by
  cases z with
  | int z =>
    have : 0 < z := by simpa [PyNum.val] using hz
    exact ⟨1 / (z : ℝ), by rw [RdpAccountant.recip, if_neg this.ne'], by positivity⟩
  | float x =>
    have : 0 < x := by simpa [PyNum.val] using hz
    exact ⟨1 / x, by rw [RdpAccountant.recip, if_neg this.ne'], by positivity⟩
  | inf => exact ⟨0, rfl, le_rfl⟩

lemma tree_total {z : PyNum} {s : ℤ ⊕ List ℤ} (hz : 0 ≤ z.val) (hs : StepsOk s) : ∃ a, tree (fun i => (orders i : EReal)) z s = .ok a := by
  unfold tree
  rw [if_neg (not_lt.2 hz)]
  by_cases h1 : z.val = 0
  · rw [if_pos h1]; exact ⟨_, rfl⟩
  rw [if_neg h1, if_neg]
  · cases s with
    | inl d =>
      have hd : ¬ d < 0 := not_lt.2 (le_of_lt hs)
      simp only [List.mem_singleton, exists_eq_left, if_neg hd]
      exact ⟨_, rfl⟩
    | inr l =>
      have hd : ¬ ∃ c ∈ l, c < 0 := by
        rintro ⟨c, hc, h⟩
        exact absurd (hs.2 c hc) (not_le.2 h)
      simp only [if_neg hd]
      exact ⟨_, rfl⟩
  · rintro (rfl | rfl)
    · exact absurd hs (lt_irrefl _)
    · exact absurd rfl hs.1

lemma rr_total (ho : ∀ i, 1 < orders i) {p : PyNum} {m : ℤ} (h0 : 0 ≤ p.val) (h1 : p.val ≤ 1) (hm : 1 ≤ m) (nr : NeighborRel) :
    ∃ a, randomizedResponse (fun i => (orders i : EReal)) p m nr = .ok a := by
  unfold randomizedResponse
  rw [if_neg (by push Not; exact ⟨h0, h1⟩), if_neg (by omega)]
  refine collect_total fun i => ?_
  have hi : ¬ (orders i : EReal) ≤ 1 := by
    rw [not_le]
    exact_mod_cast ho i
  split_ifs
  · unfold rrReplaceOne
    rw [if_neg hi]
    dsimp only
    split_ifs <;> exact ⟨_, rfl⟩
  · unfold rrReplaceSpecial
    rw [if_neg hi]
    dsimp only
    split_ifs <;> exact ⟨_, rfl⟩

lemma wor_total (ho : ∀ i, 1 < orders i) {q : ℝ} (h0 : 0 ≤ q) (h1 : q ≤ 1) {z : PyNum} (hz : 0 < z.val) (hf : z.val ≠ ⊤) :
    ∃ a, wor (fun i => (orders i : EReal)) q (.num z) = .ok a := by
  refine collect_total fun i => ?_
  have hv : z.val = (z.val.toReal : EReal) := (EReal.coe_toReal hf (by intro h; rw [h] at hz; exact absurd hz (by simp))).symm
  obtain ⟨r, hr⟩ := C58_wor_total q h0 h1 z.val.toReal (EReal.toReal_pos hz hf) z hv (orders i) (ho i)
  exact ⟨_, hr⟩

lemma computeDelta_total (hk : 0 < k) (ho : ∀ i, 1 < orders i) (rdp : Arr k) {e : ℝ} (he : 0 ≤ e) :
    ∃ x, RdpConv.computeDelta (List.ofFn orders) (List.ofFn rdp) e = .ok x := by
  unfold RdpConv.computeDelta
  rw [if_neg (not_lt.2 he), if_neg (by simp)]
  have key : ∀ l : List (ℝ × EReal), (∀ x ∈ l, 1 < x.1) → ∃ ds, RdpConv.logDeltas e l = .ok ds ∧ ds.length = l.length := by
    intro l
    induction l with
    | nil => exact fun _ => ⟨[], rfl, rfl⟩
    | cons x l ih =>
      intro h
      obtain ⟨a, r⟩ := x
      obtain ⟨ds, h1, h2⟩ := ih fun x hx => h x (by simp [hx])
      have ha : 1 < a := h (a, r) (by simp)
      exact ⟨_, by rw [RdpConv.logDeltas, if_neg (not_lt.2 ha.le), h1], by simp [h2]⟩
  obtain ⟨ds, h1, h2⟩ := key ((List.ofFn orders).zip (List.ofFn rdp)) (by
    intro x hx
    have := (List.of_mem_zip (a := x.1) (b := x.2) hx).1
    obtain ⟨i, hi⟩ := (List.mem_ofFn).1 this
    rw [← hi]
    exact ho i)
  rw [h1]
  cases ds with
  | nil => simp at h2; omega
  | cons d ds =>
    simp only
    unfold RdpConv.argmin
    cases RdpConv.argmin ds with
    | none => exact ⟨_, rfl⟩
    | some j =>
      dsimp only
      split_ifs <;> exact ⟨_, rfl⟩

lemma select_total (hk : 0 < k) (ho : ∀ i, 1 < orders i) (rdp : Arr k) {mean shape : PyNum} (hm : 1 ≤ mean.val) (hs : 0 ≤ shape.val)
    (h : shape.val = ⊤ ∨ mean.val ≠ ⊤) : ∃ a, RepeatSelect.repeatAndSelect orders rdp mean shape = .ok a := by
  cases hsr : shape.real? with
  | none =>
    unfold RepeatSelect.repeatAndSelect
    rw [if_neg (not_lt.2 hs), if_neg (not_lt.2 hm), hsr]
    refine collect_total fun i => ?_
    unfold RepeatSelect.poissonEntry
    rw [if_neg (not_le.2 (ho i))]
    obtain ⟨x, hx⟩ := computeDelta_total hk ho rdp (e := Real.log (1 + 1 / (orders i - 1))) (Real.log_nonneg (by
      have := ho i
      have : 0 < 1 / (orders i - 1) := by apply one_div_pos.2; linarith
      linarith))
    rw [hx]
    cases mean.real? <;> exact ⟨_, rfl⟩
  | some s =>
    have vs : shape.val = (s : EReal) := val_real hsr
    have hmt : mean.val ≠ ⊤ := h.resolve_left (by rw [vs]; exact EReal.coe_ne_top _)
    cases hmr : mean.real? with
    | none =>
      cases mean with
      | inf => exact absurd rfl hmt
      | _ => simp [PyNum.real?] at hmr
    | some m =>
      rw [vs] at hs
      rw [val_real hmr] at hm
      exact C44_total hk orders rdp mean shape s m hsr hmr (by exact_mod_cast hs) (by exact_mod_cast hm)

theorem atom_ok (hk : 0 < k) (ho : ∀ i, 1 < orders i) : ∀ (N : ℕ) (a : DpEvent), sizeOf a < N → RdpAccountant.Elementary a → WfCounts a → RdpOk nr a →
    RdpAccountant.Ok (libFns orders frac) nr a := by
  intro N
  induction N with
  | zero => intro a h; omega
  | succ N ih =>
    intro a hN hel hw ha
    cases a with
    | noOp => exact hel.elim
    | selfComposed => exact hel.elim
    | composed => exact hel.elim
    | nonPrivate => simp [RdpAccountant.Ok, RdpAccountant.maybeCompose]
    | gaussian z =>
      rw [RdpOk] at ha
      simp only [RdpAccountant.Ok, RdpAccountant.maybeCompose, if_true]
      exact addTo_total (poissonGaussian_total ho (by simp [PyNum.val]) (by simp [PyNum.val]) ha) _ _
    | laplace z =>
      rw [RdpOk] at ha
      obtain ⟨x, h1, h2⟩ := recip_total ha
      simp only [RdpAccountant.Ok, RdpAccountant.maybeCompose, if_true, h1]
      exact addTo_total (laplace_total ho h2) _ _
    | poissonSampled q e =>
      rw [RdpOk] at ha
      obtain ⟨hnr, h0, h1, he⟩ := ha
      simp only [RdpAccountant.Ok, RdpAccountant.maybeCompose, if_true]
      rw [if_pos (show nr = .addOrRemoveOne ∨ nr = .replaceSpecial from hnr)]
      rcases he with ⟨z, rfl, hz⟩ | he
      · simp only [effNoise]
        exact addTo_total (poissonGaussian_total ho h0 h1 hz) _ _
      · obtain ⟨z, hz, h2, -⟩ := C42_effective_noise_partial e he
        simp only [h2]
        exact addTo_total (poissonGaussian_total (z := .float z) ho h0 h1 (EReal.coe_nonneg.2 hz.le)) _ _
    | sampledWithoutReplacement sz m e =>
      rw [RdpOk] at ha
      obtain ⟨hnr, h0, h1, h2, he⟩ := ha
      have hsz : (0 : ℝ) < sz := by exact_mod_cast h0
      have hr : RdpAccountant.ratio m sz = .ok ((m : ℝ) / sz) := by rw [RdpAccountant.ratio, if_neg h0.ne']
      have q0 : (0 : ℝ) ≤ (m : ℝ) / sz := div_nonneg (by exact_mod_cast h1) hsz.le
      have q1 : (m : ℝ) / sz ≤ 1 := by rw [div_le_one hsz]; exact_mod_cast h2
      simp only [RdpAccountant.Ok, RdpAccountant.maybeCompose, if_true, hnr, hr]
      rcases he with ⟨z, rfl, hz, hf⟩ | he
      · simp only [effNoise]
        exact addTo_total (wor_total ho q0 q1 hz hf) _ _
      · obtain ⟨z, hz, h2, -⟩ := C42_effective_noise_partial e he
        simp only [h2]
        exact addTo_total (wor_total (z := .float z) ho q0 q1 (EReal.coe_pos.2 hz) (EReal.coe_ne_top _)) _ _
    | singleEpochTreeAggregation z s =>
      rw [RdpOk] at ha
      simp only [RdpAccountant.Ok, RdpAccountant.maybeCompose, if_true, ha.1]
      exact addTo_total (tree_total ha.2.1 ha.2.2) _ _
    | randomizedResponse p m =>
      rw [RdpOk] at ha
      obtain ⟨hnr, h0, h1, h2⟩ := ha
      simp only [RdpAccountant.Ok, RdpAccountant.maybeCompose, if_true]
      rw [if_pos (show nr = .replaceSpecial ∨ nr = .replaceOne from hnr.symm)]
      exact addTo_total (rr_total ho h0 h1 h2 nr) _ _
    | repeatAndSelect e mean shape =>
      rw [RdpOk] at ha
      obtain ⟨hin, hm, hs, h⟩ := ha
      have hw' : WfCounts e := by rw [WfCounts] at hw; exact hw
      have hok : (RdpAccountant.maybeCompose (libFns orders frac) nr e 1 true (fun _ => 0)).2 = .ok none := by
        refine (RdpAccountant.real_ok (libFns orders frac) nr e hw' 1 le_rfl _).2 fun a h => ?_
        have hsz := expand_size e a h
        refine ih a ?_ (RdpAccountant.elementary_of_mem _ _ h) (wfCounts_mem hw' h) (hin a h)
        simp at hN
        omega
      simp only [RdpAccountant.Ok, RdpAccountant.maybeCompose, if_true]
      generalize RdpAccountant.maybeCompose (libFns orders frac) nr e 1 true (fun _ => 0) = r at *
      obtain ⟨inner, r⟩ := r
      simp only at hok
      subst hok
      obtain ⟨b, hb⟩ := select_total hk ho inner hm hs h
      have hb : (libFns orders frac).repeatAndSelect inner mean shape = .ok b := hb
      simp only [hb]
    | unsupported => simp [RdpOk] at ha
    | sampledWithReplacement => simp [RdpOk] at ha
    | mixtureOfGaussians => simp [RdpOk] at ha

end
end Verif.Spec
