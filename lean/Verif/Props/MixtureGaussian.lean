import Verif.Proofs.MixtureBase

/-!
# C70: mixtures of Gaussians

The sensitivity is random (`from_mixture_gaussian_mechanism`). The reported deltas are never above the exact ones, and below them by at
most `Spec.mixError` as long as the initial interval of the search for the cut-off contains it. The latter holds for
`from_mixture_gaussian_mechanism` but not for `get_delta_for_epsilon` called with a single epsilon: `C70_delta_violated`.
-/

namespace Verif.Props
open Verif Verif.Spec Verif.Pld Verif.Mixture MeasureTheory ProbabilityTheory

section
variable {σ lb : ℝ} {sens probs : List ℝ} {pess : Bool} {adj : Adj} {m : Obj}

lemma mixture_good (hm : mk σ sens probs pess lb adj = .ok m) (h1 : ((sens.zip probs).map Prod.snd).sum = 1) :
    m = ⟨σ, kept sens probs, adj, pess, lb⟩ ∧ m.Good := by
  by_cases hok : MkOk σ sens probs lb
  · rw [(mk_iff σ sens probs pess lb adj).1 hok] at hm
    have := (Except.ok.inj hm).symm
    exact ⟨this, by rw [this]; exact ⟨hok.σ0, hok.dist h1⟩⟩
  · rw [(mk_iff σ sens probs pess lb adj).2 hok] at hm; cases hm

lemma near_kept (e : ℝ) : NearLimit (kept sens probs) adj e ↔ NearLimit (sens.zip probs) adj e := by
  unfold NearLimit mixLimit
  rw [zeroProb_kept]

lemma anchored_kept {loss : ℝ → ℝ} {F : List ℝ} (h : Anchored (sens.zip probs) adj loss F) : Anchored (kept sens probs) adj loss F := by
  unfold Anchored at *
  cases adj
  · exact h.imp (fun ⟨z, a, b⟩ => ⟨z, a, fun c hc => b c (mem_kept.1 hc).1⟩) fun a z hz c hc => a z hz c (mem_kept.1 hc).1
  · exact h.imp (fun ⟨z, a, b⟩ => ⟨z, a, fun c hc => b c (mem_kept.1 hc).1⟩) fun a z hz c hc => a z hz c (mem_kept.1 hc).1

/-- Only the losses matter. -/
lemma anchored_congr {cs : List (ℝ × ℝ)} {loss : ℝ → ℝ} {F G : List ℝ} (h : ∀ z, loss z ∈ F ↔ loss z ∈ G)
    (ha : Anchored cs adj loss F) : Anchored cs adj loss G := by
  unfold Anchored at *
  cases adj <;> simpa only [h] using ha

open Classical in
lemma mem_fin (h : m.Good) (eps : List ℝ) (z : ℝ) :
    m.privacyLoss z ∈ ((eps.filter fun e => m.Inverted e).filter fun l => m.Finite l) ↔
      m.privacyLoss z ∈ eps.filter fun e => ¬ NearLimit m.comps m.adj e := by
  have := (Obj.inverted_iff h _).2 (Obj.inRange_of_loss h z)
  simp only [List.mem_filter, decide_eq_true_eq, this, and_true, Obj.near_iff h, not_not]

/-- The constructor accepts exactly: a positive standard deviation, a non-positive truncation bound, lists of equal length,
probabilities in `[0, 1]` that add up to about one, and sensitivities that are non-negative and not all zero, those of probability zero
aside. Everything else raises `ValueError`. -/
theorem C70_accepts (σ : ℝ) (sens probs : List ℝ) (pess : Bool) (lb : ℝ) (adj : Adj) :
    ((∃ m, mk σ sens probs pess lb adj = .ok m) ↔ 0 < σ ∧ lb ≤ 0 ∧ probs.length = sens.length ∧
      (∀ c ∈ sens.zip probs, 0 ≤ c.2 ∧ c.2 ≤ 1 ∧ (c.2 ≠ 0 → 0 ≤ c.1)) ∧ (∃ c ∈ sens.zip probs, c.2 ≠ 0 ∧ c.1 ≠ 0) ∧
      Mech.IsClose ((sens.zip probs).map Prod.snd).sum 1) ∧
    ∀ e, mk σ sens probs pess lb adj = .error e → e = .valueError := by
  obtain ⟨h1, h2⟩ := mk_iff σ sens probs pess lb adj
  refine ⟨⟨fun ⟨m, hm⟩ => ?_, fun ⟨a1, a2, a3, a4, a5, a6⟩ => ⟨_, h1 ⟨a1, a2, a3, fun c hc => (a4 c hc).2.2, a5, a6, fun c hc =>
    ⟨(a4 c hc).1, (a4 c hc).2.1⟩⟩⟩⟩, fun e he => ?_⟩
  · by_cases hok : MkOk σ sens probs lb
    · exact ⟨hok.σ0, hok.lb, hok.len, fun c hc => ⟨(hok.prob c hc).1, (hok.prob c hc).2, hok.nonneg c hc⟩, hok.pos, hok.close⟩
    · rw [h2 hok] at hm; cases hm
  · by_cases hok : MkOk σ sens probs lb
    · rw [h1 hok] at he; cases he
    · rw [h2 hok] at he; cases he; rfl

/-- `privacy_loss` is the logarithm of the ratio of the densities, and strictly decreasing. -/
theorem C70_loss (hm : mk σ sens probs pess lb adj = .ok m) (h1 : ((sens.zip probs).map Prod.snd).sum = 1) :
    (∀ x, m.privacyLoss x = Real.log (mixUpperPdf σ (sens.zip probs) adj x / mixLowerPdf σ (sens.zip probs) adj x)) ∧
    StrictAnti m.privacyLoss := by
  obtain ⟨rfl, h⟩ := mixture_good hm h1
  refine ⟨fun x => ?_, Obj.privacyLoss_strictAnti h⟩
  rw [Obj.loss_pdf h]
  unfold mixUpperPdf mixLowerPdf
  cases adj <;> simp only []
  · rw [mixPdf_kept]
  · rw [mixPdf_neg_kept]

/-- `inverse_privacy_losses` returns for every sorted array of attained losses, unless all of them are near the limit; a loss near the
limit gets an infinite outcome and every other one a finite outcome. -/
theorem C70_inverse_total (hm : mk σ sens probs pess lb adj = .ok m) (h1 : ((sens.zip probs).map Prod.snd).sum = 1)
    {p : ℝ} (hp : 0 < p) {losses : List ℝ} (hs : losses.Pairwise (· ≤ ·)) (hin : ∀ l ∈ losses, ∃ z, m.privacyLoss z = l)
    (hne : ∃ l ∈ losses, ¬ NearLimit (sens.zip probs) adj l) :
    ∃ out, m.inverseLosses losses p = .ok out ∧ List.Forall₂ (fun l (x : EReal) =>
      (NearLimit (sens.zip probs) adj l → x = match adj with | .add => ⊥ | .remove => ⊤) ∧
      (¬ NearLimit (sens.zip probs) adj l → ∃ r : ℝ, x = r)) losses out := by
  classical
  obtain ⟨rfl, h⟩ := mixture_good hm h1
  obtain ⟨l, hl, hl'⟩ := hne
  obtain ⟨out, c, ho, _, hf⟩ := Obj.inverseLosses_spec h hp hs (fun l hl => (Obj.inRange_iff h l).2 (hin l hl)) rfl
    (List.ne_nil_of_mem (List.mem_filter.2 ⟨hl, decide_eq_true (not_not.1 fun hc => hl' ((near_kept l).1 ((Obj.near_iff h l).2 hc)))⟩))
  refine ⟨out, ho, hf.imp fun a b hab => ?_⟩
  rw [← near_kept, Obj.near_iff h]
  refine ⟨fun hc => ?_, fun hc => ?_⟩
  · rw [hab.2 hc]; rfl
  · obtain ⟨r, hr, _⟩ := hab.1 (not_not.1 hc)
    exact ⟨r, hr⟩

/-- If the initial interval contains the cut-offs, each of them is found to precision `p`. -/
theorem C70_inverse (hm : mk σ sens probs pess lb adj = .ok m) (h1 : ((sens.zip probs).map Prod.snd).sum = 1)
    {p : ℝ} (hp : 0 < p) {losses : List ℝ} (hs : losses.Pairwise (· ≤ ·)) (hin : ∀ l ∈ losses, ∃ z, m.privacyLoss z = l)
    (hne : ∃ l ∈ losses, ¬ NearLimit (sens.zip probs) adj l) {F : List ℝ}
    (hF : ∀ l, l ∈ F ↔ l ∈ losses ∧ ¬ NearLimit (sens.zip probs) adj l) (ha : Anchored (sens.zip probs) adj m.privacyLoss F) :
    ∃ out, m.inverseLosses losses p = .ok out ∧ List.Forall₂ (fun l (x : EReal) =>
      ¬ NearLimit (sens.zip probs) adj l → ∃ r : ℝ, x = r ∧ ∀ z, m.privacyLoss z = l → |r - z| ≤ p) losses out := by
  classical
  obtain ⟨rfl, h⟩ := mixture_good hm h1
  obtain ⟨l, hl, hl'⟩ := hne
  set m : Obj := ⟨σ, kept sens probs, adj, pess, lb⟩ with hm'
  have hiff : ∀ l, ¬ NearLimit (sens.zip probs) adj l ↔ m.Finite l := fun l => by
    rw [← near_kept, Obj.near_iff h (m := m), not_not]
  obtain ⟨out, c, ho, _, hf⟩ := Obj.inverseLosses_spec h hp hs (fun l hl => (Obj.inRange_iff h l).2 (hin l hl)) rfl
    (List.ne_nil_of_mem (List.mem_filter.2 ⟨hl, decide_eq_true ((hiff l).1 hl')⟩))
  refine ⟨out, ho, hf.imp fun a b hab hn => ?_⟩
  obtain ⟨r, hr, _, _, hc⟩ := hab.1 ((hiff a).1 hn)
  refine ⟨r, hr, hc (Obj.anchored_covered h (fun e he => hin e (List.mem_filter.1 he).1) (anchored_kept (anchored_congr (fun z => ?_) ha)))⟩
  rw [hF, List.mem_filter, hiff]
  simp

lemma reported_error (h : m.Good) {S : ℝ} (hS : ∀ c ∈ m.comps, c.1 ≤ S) {cov : Prop} (hc : cov) {e d : ℝ} (hr : m.Reported cov e d) :
    ∀ δ, IsHs (mixUpper m.σ m.comps m.adj) (mixLower m.σ m.comps m.adj) e δ → d ≤ δ ∧ δ ≤ d + mixError m.σ S m.comps := by
  intro δ hδ
  obtain ⟨k1, k2, k3, k4⟩ := hr δ hδ
  have ht := Obj.tol_le h hS
  have t0 := Obj.tol_nonneg m
  unfold Obj.tol at t0
  refine ⟨k1, ?_⟩
  by_cases hin : m.InRange e
  · by_cases hf : m.Finite e
    · exact (k4 hc hin hf).trans (by linarith [le_max_left (m.slack 1e-6) m.window])
    · exact (k3 hin hf).trans (by linarith [le_max_right (m.slack 1e-6) m.window])
  · rw [k2 hin]; linarith

lemma getDelta_of {e : ℝ} : m.getDelta e = (m.getDeltas [e]).map fun r => r.headD 0 := by
  unfold Obj.getDelta Obj.getDeltas
  cases h : m.rawDeltas [e] with
  | error e => rfl
  | ok r =>
    change Except.ok _ = Except.ok _
    congr 1
    have hl : r.length ≤ 1 := by
      by_contra hc
      unfold Obj.rawDeltas at h
      rw [if_neg (not_not.2 (List.pairwise_singleton _ _)), Mech.bind_ok] at h
      obtain ⟨xs, _, h⟩ := h
      have := congrArg List.length (Except.ok.inj h)
      rw [List.length_map] at this
      apply hc
      rw [← this]
      have key : ∀ (b : Bool) (as bs : List ℝ), (Obj.scatter [b] as bs).length ≤ 1 := by
        intro b as bs
        cases b <;> cases as <;> cases bs <;> simp [Obj.scatter]
      exact key _ _ _
    match r, hl with
    | [], _ => rfl
    | [a], _ => rfl

/-- The reported deltas never exceed the exact ones. -/
theorem C70_never_above (hm : mk σ sens probs pess lb adj = .ok m) (h1 : ((sens.zip probs).map Prod.snd).sum = 1)
    {eps ds : List ℝ} (hds : m.getDeltas eps = .ok ds) :
    List.Forall₂ (fun e d => 0 ≤ d ∧ d ≤ 1 ∧
      ∀ δ, IsHs (mixUpper σ (sens.zip probs) adj) (mixLower σ (sens.zip probs) adj) e δ → d ≤ δ) eps ds := by
  classical
  obtain ⟨rfl, h⟩ := mixture_good hm h1
  obtain ⟨hr, _⟩ := Obj.getDeltas_ok h rfl hds
  have hrange := (Obj.getDeltas_range hds).1
  rw [List.forall₂_iff_zip] at hr ⊢
  refine ⟨hr.1, fun {a b} hab => ⟨(hrange b (List.of_mem_zip hab).2).1, (hrange b (List.of_mem_zip hab).2).2, fun δ hδ => ?_⟩⟩
  rw [← mixUpper_kept, ← mixLower_kept] at hδ
  exact (hr.2 hab δ hδ).1

/-- If the initial interval contains the cut-offs, the reported deltas are the exact ones up to `mixError`. -/
theorem C70_delta (hm : mk σ sens probs pess lb adj = .ok m) (h1 : ((sens.zip probs).map Prod.snd).sum = 1)
    {S : ℝ} (hS : ∀ c ∈ sens.zip probs, c.1 ≤ S) {eps : List ℝ} (hs : eps.Pairwise (· ≤ ·))
    (hne : ∃ z, m.privacyLoss z ∈ eps ∧ ¬ NearLimit (sens.zip probs) adj (m.privacyLoss z)) {F : List ℝ}
    (hF : ∀ e, e ∈ F ↔ e ∈ eps ∧ ¬ NearLimit (sens.zip probs) adj e) (ha : Anchored (sens.zip probs) adj m.privacyLoss F) :
    ∃ ds, m.getDeltas eps = .ok ds ∧ List.Forall₂ (fun e d =>
      ∀ δ, IsHs (mixUpper σ (sens.zip probs) adj) (mixLower σ (sens.zip probs) adj) e δ → d ≤ δ ∧ δ ≤ d + mixError σ S (sens.zip probs)) eps ds := by
  classical
  obtain ⟨rfl, h⟩ := mixture_good hm h1
  set m : Obj := ⟨σ, kept sens probs, adj, pess, lb⟩ with hm'
  have hmem : ∀ z, m.privacyLoss z ∈ F ↔ m.privacyLoss z ∈ ((eps.filter fun e => m.Inverted e).filter fun l => m.Finite l) := by
    intro z
    rw [mem_fin h, hF, List.mem_filter, ← near_kept]
    simp [hm']
  obtain ⟨z, hz, hz'⟩ := hne
  have hz0 : m.privacyLoss z ∈ F := (hF _).2 ⟨hz, hz'⟩
  obtain ⟨ds, hd, hr⟩ := Obj.getDeltas_spec h hs rfl (.inr (List.ne_nil_of_mem ((hmem z).1 hz0)))
  refine ⟨ds, hd, hr.imp fun a b hab => ?_⟩
  have := reported_error h (S := S) (fun c hc => hS c (mem_kept.1 hc).1) (Obj.anchored_covered h (fun e he => (Obj.inRange_iff h e).1
    ((Obj.inverted_iff h e).1 (of_decide_eq_true (List.mem_filter.1 (List.mem_filter.1 he).1).2))) (anchored_kept (anchored_congr hmem ha))) hab
  rwa [show m.comps = kept sens probs from rfl, mixUpper_kept, mixLower_kept, mixError_kept] at this

/-- With one positive sensitivity `s` the search always succeeds, also for a single epsilon. -/
theorem C70_delta_single (hm : mk σ sens probs pess lb adj = .ok m) (h1 : ((sens.zip probs).map Prod.snd).sum = 1)
    {s : ℝ} (hs0 : ∀ c ∈ sens.zip probs, c.1 = 0 ∨ c.1 = s) (hs1 : 0 ≤ s) {e : ℝ} (he : ¬ NearLimit (sens.zip probs) adj e) :
    ∃ d, m.getDelta e = .ok d ∧ ∀ δ, IsHs (mixUpper σ (sens.zip probs) adj) (mixLower σ (sens.zip probs) adj) e δ →
      d ≤ δ ∧ δ ≤ d + mixError σ s (sens.zip probs) := by
  by_cases hr : ∃ z, m.privacyLoss z = e
  · obtain ⟨z, hz⟩ := hr
    have anti := (C70_loss hm h1).2
    have huniq : ∀ z', m.privacyLoss z' ∈ [e] → z' = z := fun z' h' => anti.injective (by
      rw [hz]; simpa using h')
    obtain ⟨ds, hd, hf⟩ := C70_delta hm h1 (S := s) (fun c hc => by rcases hs0 c hc with k | k <;> rw [k]; exact hs1)
      (List.pairwise_singleton _ e) ⟨z, by simp [hz], by rw [hz]; exact he⟩ (F := [e]) (fun x => by
        simp only [List.mem_singleton]
        exact ⟨fun h => ⟨h, h ▸ he⟩, fun h => h.1⟩) (by
        unfold Anchored
        cases adj
        · rcases le_total z s with k | k
          · refine .inl ⟨z, by simp [hz], fun c hc h0 => ?_⟩
            rcases hs0 c hc with k' | k'
            · exact absurd k' h0.ne'
            · rw [k']; exact k
          · refine .inr fun z' hz' c hc h0 => ?_
            rw [huniq z' hz']
            rcases hs0 c hc with k' | k'
            · exact absurd k' h0.ne'
            · rw [k']; exact k
        · rcases le_total (-s) z with k | k
          · refine .inl ⟨z, by simp [hz], fun c hc h0 => ?_⟩
            rcases hs0 c hc with k' | k'
            · exact absurd k' h0.ne'
            · rw [k']; exact k
          · refine .inr fun z' hz' c hc h0 => ?_
            rw [huniq z' hz']
            rcases hs0 c hc with k' | k'
            · exact absurd k' h0.ne'
            · rw [k']; exact k)
    obtain ⟨d, l, hd1, hl, rfl⟩ := List.forall₂_cons_left_iff.1 hf
    refine ⟨d, ?_, hd1⟩
    rw [getDelta_of, hd]; rfl
  · obtain ⟨hm', h⟩ := mixture_good hm h1
    classical
    have hS : ∀ c ∈ m.comps, c.1 ≤ s := fun c hc => by
      rw [hm'] at hc
      rcases hs0 c (mem_kept.1 hc).1 with k | k <;> rw [k]; exact hs1
    obtain ⟨ds, hd, hf⟩ := Obj.getDeltas_spec h (List.pairwise_singleton _ e) rfl (.inl fun x hx => by
      rw [List.mem_singleton] at hx
      subst hx
      rwa [Obj.inRange_iff h])
    obtain ⟨d, l, hd1, hl, rfl⟩ := List.forall₂_cons_left_iff.1 hf
    refine ⟨d, by rw [getDelta_of, hd]; rfl, ?_⟩
    intro δ hδ
    have k := hd1 δ (by rw [hm']; simp only []; rwa [mixUpper_kept, mixLower_kept])
    have e1 : mixError σ s (sens.zip probs) = mixError m.σ s m.comps := by rw [hm', ← mixError_kept]
    have := Obj.tol_le h hS
    have t0 := Obj.tol_nonneg m
    unfold Obj.tol at t0
    refine ⟨k.1, ?_⟩
    rw [k.2.1 (by rwa [Obj.inRange_iff h]), e1]
    linarith

/-- If every epsilon that is attained by the loss is near the limit, `get_delta_for_epsilon` raises `ValueError` (`np.min` of an empty
array). -/
theorem C70_raises (hm : mk σ sens probs pess lb adj = .ok m) (h1 : ((sens.zip probs).map Prod.snd).sum = 1)
    {eps : List ℝ} (hs : eps.Pairwise (· ≤ ·)) (hin : ∃ z, m.privacyLoss z ∈ eps)
    (hnear : ∀ z, m.privacyLoss z ∈ eps → NearLimit (sens.zip probs) adj (m.privacyLoss z)) :
    m.getDeltas eps = .error .valueError ∧ ∀ e, eps = [e] → m.getDelta e = .error .valueError := by
  classical
  obtain ⟨rfl, h⟩ := mixture_good hm h1
  obtain ⟨z, hz⟩ := hin
  have key := Obj.getDeltas_ne h rfl hs ⟨_, hz, Obj.inRange_of_loss h z⟩ (by
    rw [List.filter_eq_nil_iff]
    intro e he hc
    rw [List.mem_filter] at he
    obtain ⟨w, rfl⟩ := (Obj.inRange_iff h e).1 ((Obj.inverted_iff h e).1 (of_decide_eq_true he.2))
    exact (Obj.near_iff h _).1 ((near_kept _).2 (hnear w he.1)) (of_decide_eq_true hc))
  refine ⟨key, fun e he => ?_⟩
  subst he
  rw [getDelta_of, key]; rfl

end

/-! ### A single epsilon, several sensitivities -/

lemma witness_ok : MkOk 1 [1 / 10, 4, 100] [1 / 100, 98 / 100, 1 / 100] (-50) where
  σ0 := one_pos
  lb := by norm_num
  len := rfl
  nonneg c hc _ := by
    simp only [List.zip_cons_cons, List.zip_nil_right, List.mem_cons, List.not_mem_nil, or_false] at hc
    rcases hc with rfl | rfl | rfl <;> norm_num
  pos := ⟨(4, 98 / 100), by simp, by norm_num, by norm_num⟩
  close := by unfold Mech.IsClose; norm_num
  prob c hc := by
    simp only [List.zip_cons_cons, List.zip_nil_right, List.mem_cons, List.not_mem_nil, or_false] at hc
    rcases hc with rfl | rfl | rfl <;> norm_num

/-- **Violated**: `get_delta_for_epsilon`, asked for one epsilon, can report a delta far below the exact one, although it is documented to
be over-estimated (`privacy_loss_mechanism.py:1832-1838`): with standard deviation 1 and sensitivities 0.1, 4 and 100, of probabilities
1 %, 98 % and 1 %, at epsilon 1 for REMOVE, it is at most 0.03 while the exact value is at least 0.4. The initial interval of the search for
the cut-off is computed from the smallest and the largest sensitivity and does not contain the cut-off. -/
theorem C70_delta_violated : ∃ m d δ, mk 1 [1 / 10, 4, 100] [1 / 100, 98 / 100, 1 / 100] true (-50) .remove = .ok m ∧
    m.getDelta 1 = .ok d ∧
    IsHs (mixUpper 1 ([1 / 10, 4, 100].zip [1 / 100, 98 / 100, 1 / 100]) .remove)
      (mixLower 1 ([1 / 10, 4, 100].zip [1 / 100, 98 / 100, 1 / 100]) .remove) 1 δ ∧ d ≤ 3 / 100 ∧ 2 / 5 ≤ δ := by
  classical
  have hk : kept [1 / 10, 4, 100] [1 / 100, 98 / 100, 1 / 100] = [1 / 10, 4, 100].zip [1 / 100, 98 / 100, 1 / 100] := by
    unfold kept
    rw [List.filter_eq_self]
    intro c hc
    simp only [List.zip_cons_cons, List.zip_nil_right, List.mem_cons, List.not_mem_nil, or_false] at hc
    rcases hc with rfl | rfl | rfl <;> norm_num
  have hmk := (mk_iff 1 [1 / 10, 4, 100] [1 / 100, 98 / 100, 1 / 100] true (-50) .remove).1 witness_ok
  obtain ⟨_, h⟩ := mixture_good hmk (by norm_num)
  rw [hk] at hmk h
  set m : Obj := ⟨1, [1 / 10, 4, 100].zip [1 / 100, 98 / 100, 1 / 100], .remove, true, -50⟩ with hm
  have hpos : m.pos = [(1 / 10, 1 / 100), (4, 98 / 100), (100, 1 / 100)] := by
    unfold Obj.pos
    rw [List.filter_eq_self.2]
    · rfl
    · intro c hc
      simp only [hm, List.zip_cons_cons, List.zip_nil_right, List.mem_cons, List.not_mem_nil, or_false] at hc
      rcases hc with rfl | rfl | rfl <;> norm_num
  have hq : m.q = 1 := by rw [Obj.q_eq h, hpos]; norm_num
  have hmin : m.minSens = 1 / 10 := by unfold Obj.minSens; rw [hpos]; norm_num
  have hmax : m.maxSens = 100 := by unfold Obj.maxSens; rw [hpos]; norm_num
  have hlim : m.limit = none := by unfold Obj.limit; rw [hq, if_neg (lt_irrefl _)]
  have hfin : ∀ e, m.Finite e := fun e => by unfold Obj.Finite; simp only [hlim]
  have hinv : ∀ e, m.Inverted e := fun e => by unfold Obj.Inverted; simp only [hlim]
  have hin : ∀ e, m.InRange e := fun e => (Obj.inverted_iff h e).1 (hinv e)
  have hff : [(1 : ℝ)] = [1].filter fun l => m.Finite l := by rw [List.filter_eq_self.2 fun e _ => decide_eq_true (hfin e)]
  obtain ⟨out, c, ho, hc, hf⟩ := Obj.inverseLosses_spec h (p := 1e-6) (by norm_num) (List.pairwise_singleton _ 1) (fun l _ => hin l) hff
    (by simp)
  obtain ⟨x, l, hx, hl, rfl⟩ := List.forall₂_cons_left_iff.1 hf
  cases hl
  obtain ⟨r, rfl, hr, _⟩ := hx.1 (hfin 1)
  have hlow : m.lowPl [1] [1] = 1 := by simp [Obj.lowPl, hm, Obj.listMin]
  have hhigh : m.highPl [1] [1] = 1 := by simp [Obj.highPl, hm]
  rw [hlow, hhigh, Obj.candidates_eq h (hin 1) (hin 1)] at hc
  have hcand : ∀ y ∈ c, y ≤ -(1005 / 100) := by
    rw [← Except.ok.inj hc]
    intro y hy
    simp only [List.mem_cons, List.not_mem_nil, or_false, hmin, hmax] at hy
    have hy' : ∀ t, m.back (m.yOf t (m.tOf 1)) = -(t / 2 + 1 / t) := by
      intro t
      change -(t / 2 + 1 ^ 2 * Real.log ((Real.exp 1 - (1 - m.q)) / m.q) / t) = _
      rw [hq, sub_self, sub_zero, div_one, Real.log_exp]; norm_num
    have e1 : m.back (m.yOf (1 / 10) (m.tOf 1)) = -(1005 / 100) := by rw [hy']; norm_num
    have e2 : m.back (m.yOf 100 (m.tOf 1)) ≤ -(1005 / 100) := by rw [hy']; norm_num
    rcases hy with rfl | rfl | rfl | rfl
    · exact e1.le
    · exact e2
    · exact e1.le
    · exact e2
  have hr' : r ≤ -10 := by
    have h1 := hcand _ (Obj.listMax_spec (l := c) (by rw [← Except.ok.inj hc]; simp)).1
    have h2 := Int.ceil_lt_add_one (Obj.listMax c / 1e-6)
    have h3 : (⌈Obj.listMax c / 1e-6⌉ : ℝ) * 1e-6 ≤ (Obj.listMax c / 1e-6 + 1) * 1e-6 :=
      mul_le_mul_of_nonneg_right h2.le (by norm_num)
    rw [add_mul, div_mul_cancel₀ _ (by norm_num)] at h3
    norm_num at h3 hr
    linarith
  obtain ⟨δ, hδ⟩ := Obj.exists_isHs h 1
  have f1 := Obj.upper_prob h
  have g := gcdf_noise (σ := 1) one_pos
  have hP : ∀ x, (mixUpper 1 m.comps .remove).real (Set.Iic x) =
      1 / 100 * gcdf 1 (x + 1 / 10) + 98 / 100 * gcdf 1 (x + 4) + 1 / 100 * gcdf 1 (x + 100) := by
    intro x
    rw [mixUpper, gaussMixture_real (neg_probs h.prob)]
    simp only [hm, List.zip_cons_cons, List.zip_nil_right, List.map_cons, List.map_nil, List.sum_cons, List.sum_nil, gcdf_shift,
      sub_neg_eq_add]
    ring
  refine ⟨m, Mech.AdditiveNoise.clip01 (m.cutoffDelta 1 (r : EReal)), δ, hmk, ?_, hδ, ?_, ?_⟩
  · unfold Obj.getDelta Obj.rawDeltas
    rw [if_neg (not_not.2 (List.pairwise_singleton _ _))]
    have e : ([(1 : ℝ)].filter fun e => m.Inverted e) = [1] := List.filter_eq_self.2 fun e _ => decide_eq_true (hinv e)
    have e' : ([(1 : ℝ)].filter fun e => ¬ m.Inverted e) = [] := by
      rw [List.filter_eq_nil_iff]; intro a _; simp [hinv]
    simp only [e, e', ho]
    have : decide (m.Inverted 1) = true := decide_eq_true (hinv 1)
    simp only [List.map_cons, List.map_nil, this]
    rfl
  · refine Obj.clip_le ?_ (by norm_num)
    rw [Obj.cutoffDelta_eq h, Obj.below_coe]
    have n : 0 ≤ Real.exp 1 * (mixLower m.σ m.comps m.adj).real (Set.Iic r) := mul_nonneg (Real.exp_pos _).le measureReal_nonneg
    have k : (mixUpper m.σ m.comps m.adj).real (Set.Iic r) ≤ (mixUpper 1 m.comps .remove).real (Set.Iic (-10)) :=
      measureReal_mono (Set.Iic_subset_Iic.2 hr') (measure_ne_top _ _)
    rw [hP (-10)] at k
    have b1 := g.le_one (-10 + 1 / 10)
    have b2 := g.le_one (-10 + 100)
    have b3 : gcdf 1 (-10 + 4) ≤ 1 / 181 := by
      have := gcdf_tail (a := 6) (by norm_num)
      rw [show (-10 + 4 : ℝ) = -6 by norm_num]
      refine this.trans ?_
      rw [Real.exp_neg, ← one_div]
      refine one_div_le_one_div_of_le (by norm_num) ?_
      have := Real.quadratic_le_exp_of_nonneg (x := 6 ^ 2 / 2) (by norm_num)
      norm_num at this ⊢
      linarith
    have fin : ∀ A B a b c : ℝ, A ≤ 1 / 100 * a + 98 / 100 * b + 1 / 100 * c → 0 ≤ B → a ≤ 1 → b ≤ 1 / 181 → c ≤ 1 → A - B ≤ 3 / 100 := by
      intros; linarith
    exact fin _ _ _ _ _ k n b1 b3 b2
  · have k := hδ.1 (Set.Iic (-2)) measurableSet_Iic
    have b3 : gcdf 1 (-2 + 4) = gcdf 1 2 := by norm_num
    change (mixUpper 1 m.comps .remove).real (Set.Iic (-2)) ≤ Real.exp 1 * gcdf 1 (-2) + δ at k
    rw [hP (-2), b3] at k
    have b1 := g.nonneg (-2 + 1 / 10)
    have b2 : gcdf 1 2 ≤ gcdf 1 (-2 + 100) := g.mono (by norm_num)
    have b4 := gcdf_neg (σ := 1) one_pos 2
    have b5 := gcdf_tail (a := 2) (by norm_num)
    have e1 : Real.exp (-(2 ^ 2 / 2)) = (Real.exp 1)⁻¹ ^ 2 := by
      rw [← Real.exp_neg, ← Real.exp_nat_mul]; norm_num
    rw [e1] at b5
    have e2 : (Real.exp 1)⁻¹ ≤ 3679 / 10000 := by
      have := Real.exp_one_gt_d9
      rw [← one_div, div_le_iff₀ (Real.exp_pos _)]
      norm_num at this ⊢
      linarith
    have e3 : 0 < (Real.exp 1)⁻¹ := inv_pos.2 (Real.exp_pos _)
    have e4 : Real.exp 1 * gcdf 1 (-2) ≤ (Real.exp 1)⁻¹ := by
      have := mul_le_mul_of_nonneg_left b5 (Real.exp_pos 1).le
      rwa [sq, ← mul_assoc, mul_inv_cancel₀ (Real.exp_pos 1).ne', one_mul] at this
    have e5 : (Real.exp 1)⁻¹ ^ 2 ≤ (3679 / 10000) ^ 2 := pow_le_pow_left₀ e3.le e2 2
    rw [show ((3679 / 10000 : ℝ)) ^ 2 = 13535041 / 100000000 by norm_num] at e5
    have fin : ∀ δ a b c d e f : ℝ, 1 / 100 * a + 98 / 100 * b + 1 / 100 * c ≤ d + δ → 0 ≤ a → b ≤ c → e = 1 - b → e ≤ f →
        f ≤ 13535041 / 100000000 → d ≤ 3679 / 10000 → 2 / 5 ≤ δ := by
      intros; linarith
    exact fin _ _ _ _ _ _ _ k b1 b2 b4 b5 e5 (e4.trans e2)

/-! ### The privacy loss distribution -/

section
variable {ppf : ℝ → ℝ → ℝ} {σ lb disc : ℝ} {sens probs : List ℝ}

/-- The distribution returned by `from_mixture_gaussian_mechanism` (connect-the-dots, pessimistic) bounds the hockey-stick divergences of
the mixture from above up to `mixError`, in both directions, and so it does for every vector query whose random change is bounded by the
random sensitivity. `s` is the smallest positive sensitivity, `S` bounds all of them. -/
theorem C70_pld (hppf : NormalQuantile ppf) (hlb : lb < 0) (hd : 0 < disc) (h1 : ((sens.zip probs).map Prod.snd).sum = 1)
    {s S : ℝ} (hs : ∃ c ∈ sens.zip probs, c.2 ≠ 0 ∧ c.1 = s) (hs0 : 0 < s) (hs' : ∀ c ∈ sens.zip probs, c.2 ≠ 0 → 0 < c.1 → s ≤ c.1)
    (hS : ∀ c ∈ sens.zip probs, c.1 ≤ S) (hg : DiscOk (sens.zip probs) disc (mixLogRatio σ (sens.zip probs) s))
    {fuel : ℕ} {p : Pld} (hp : fromMixture fuel (ppf σ) σ sens probs disc lb = some (.ok p)) (ε : ℝ) :
    (∀ adj, Indist (mixUpper σ (sens.zip probs) adj) (mixLower σ (sens.zip probs) adj) ε
      (p.getDeltaForEpsilon ε + mixError σ S (sens.zip probs))) ∧
    ∀ {d : ℕ} (vs : List (Vec d × ℝ)) (v : Vec d), ChangeWithin vs (sens.zip probs) →
      Indist (vecMixture σ v vs) (gaussianVec v σ) ε (p.getDeltaForEpsilon ε + mixError σ S (sens.zip probs)) ∧
      Indist (gaussianVec v σ) (vecMixture σ v vs) ε (p.getDeltaForEpsilon ε + mixError σ S (sens.zip probs)) := by
  obtain ⟨r, a, hr, ha, rfl⟩ := fromMixture_ok hp
  have hok := (singlePmf_valid hppf hlb hd h1 hr).1
  have core : ∀ adj, Indist (mixUpper σ (kept sens probs) adj) (mixLower σ (kept sens probs) adj) ε
      ((Pld.mk' r (some a)).getDeltaForEpsilon ε + mixError σ S (sens.zip probs)) := by
    intro adj
    have hmax : (Pld.mk' r (some a)).getDeltaForEpsilon ε = max (r.getDeltaForEpsilon ε) (a.getDeltaForEpsilon ε) := rfl
    rw [hmax]
    cases adj
    · exact Indist.mono (singlePmf_curve hppf hlb hd h1 hs hs0 hs' hS hg ha ε) (add_le_add (le_max_right _ _) le_rfl)
    · exact Indist.mono (singlePmf_curve hppf hlb hd h1 hs hs0 hs' hS hg hr ε) (add_le_add (le_max_left _ _) le_rfl)
  refine ⟨fun adj => ?_, fun {d} vs v hw => ?_⟩
  · have := core adj
    rwa [mixUpper_kept, mixLower_kept] at this
  · obtain ⟨vs', hw', e⟩ := changeWithin_kept (σ := σ) v hw
    rw [← e]
    exact ⟨vec_remove hok.σ0 (hok.dist h1) hw' v (core .remove), vec_add hok.σ0 (hok.dist h1) hw' v (core .add)⟩

/-- The usual case: the positive sensitivities differ by a factor of at most two and sensitivity zero does not have probability almost
one. -/
theorem C70_disc {s : ℝ} (hσ : 0 < σ) (h0 : ∀ c ∈ sens.zip probs, 0 ≤ c.2) (h1 : ((sens.zip probs).map Prod.snd).sum = 1) (hs : 0 < s)
    (h2 : ∀ c ∈ sens.zip probs, 0 ≤ c.1 ∧ c.1 ≤ 2 * s) (hz : zeroProb (sens.zip probs) ≤ 1 - 1e-7) (disc : ℝ) :
    DiscOk (sens.zip probs) disc (mixLogRatio σ (sens.zip probs) s) := by
  have hz0 : 0 ≤ zeroProb (sens.zip probs) := by
    unfold zeroProb
    refine List.sum_nonneg fun x hx => ?_
    obtain ⟨c, hc, rfl⟩ := List.mem_map.1 hx
    exact h0 c (List.mem_filter.1 hc).1
  rcases hz0.eq_or_lt with hz' | hz'
  · exact .inl hz'.symm
  · refine .inr ⟨0, ?_, ?_⟩
    · have : Real.log (zeroProb (sens.zip probs)) ≤ -1e-7 := by
        have := Real.log_le_sub_one_of_pos hz'
        linarith
      rw [abs_of_neg (lt_of_le_of_lt this (by norm_num))]
      norm_num at this ⊢
      linarith
    · push_cast
      rw [zero_mul]
      unfold mixLogRatio
      refine Real.log_nonneg ?_
      rw [← h1]
      refine sum_le_of fun c hc => le_mul_of_one_le_right (h0 c hc) (Real.one_le_exp ?_)
      refine div_nonneg ?_ (sq_nonneg σ)
      nlinarith [h2 c hc]

/-- `from_mixture_gaussian_mechanism` returns a distribution for all admissible arguments and a fine enough discretization. -/
theorem C70_pld_exists (hppf : NormalQuantile ppf) (hσ : 0 < σ) (hlb : lb < 0) (hd : 0 < disc) (hlen : probs.length = sens.length)
    (hc : ∀ c ∈ sens.zip probs, 0 ≤ c.2 ∧ (c.2 ≠ 0 → 0 ≤ c.1)) (hpos : ∃ c ∈ sens.zip probs, c.2 ≠ 0 ∧ c.1 ≠ 0)
    (h1 : ((sens.zip probs).map Prod.snd).sum = 1) (hg : DiscOk (sens.zip probs) disc (mixLogRatio σ (sens.zip probs) 0)) :
    ∃ N, ∀ fuel ≥ N, ∃ p, fromMixture fuel (ppf σ) σ sens probs disc lb = some (.ok p) := by
  have hok : MkOk σ sens probs lb := ⟨hσ, hlb.le, hlen, fun c h => (hc c h).2, hpos, .inl h1, fun c h => ⟨(hc c h).1, by
    rw [← h1]
    exact List.single_le_sum (fun x hx => by
      obtain ⟨c, hc', rfl⟩ := List.mem_map.1 hx
      exact (hc c hc').1) _ (List.mem_map_of_mem h)⟩⟩
  have grid : ∀ adj, (⟨σ, kept sens probs, adj, true, lb⟩ : Obj).GridOk disc := by
    intro adj
    have hz := Obj.zeroProb_eq (m := ⟨σ, kept sens probs, adj, true, lb⟩) ⟨hok.σ0, hok.dist h1⟩
    change zeroProb (kept sens probs) = _ at hz
    rw [zeroProb_kept] at hz
    rcases hg with hg | ⟨k, hk1, hk2⟩
    · left; rw [hg] at hz; linarith
    · right
      rw [← hz, logRatio_kept]
      exact ⟨k, hk1, hk2⟩
  obtain ⟨N1, hN1⟩ := singlePmf_accept hppf hlb hd h1 hok (grid .remove)
  obtain ⟨N2, hN2⟩ := singlePmf_accept hppf hlb hd h1 hok (grid .add)
  refine ⟨max N1 N2, fun fuel hf => ?_⟩
  obtain ⟨r, hr⟩ := hN1 fuel (le_trans (le_max_left _ _) hf)
  obtain ⟨a, ha⟩ := hN2 fuel (le_trans (le_max_right _ _) hf)
  exact ⟨Pld.mk' r (some a), by unfold fromMixture; rw [hr]; simp only []; rw [ha]⟩

end

/-! ### Non-vacuity -/

/-- Sensitivity 0 or 1 with probability one half each. -/
lemma half_ok : MkOk 1 [0, 1] [1 / 2, 1 / 2] (-50) where
  σ0 := one_pos
  lb := by norm_num
  len := rfl
  nonneg c hc _ := by
    simp only [List.zip_cons_cons, List.zip_nil_right, List.mem_cons, List.not_mem_nil, or_false] at hc
    rcases hc with rfl | rfl <;> norm_num
  pos := ⟨(1, 1 / 2), by simp, by norm_num, by norm_num⟩
  close := by unfold Mech.IsClose; norm_num
  prob c hc := by
    simp only [List.zip_cons_cons, List.zip_nil_right, List.mem_cons, List.not_mem_nil, or_false] at hc
    rcases hc with rfl | rfl <;> norm_num

lemma half_zero : zeroProb ([0, 1].zip [1 / 2, 1 / 2]) = 1 / 2 := by
  unfold zeroProb; simp

lemma half_not_near {e : ℝ} (he : 0 ≤ e) : ¬ NearLimit ([0, 1].zip [1 / 2, 1 / 2]) .remove e := by
  unfold NearLimit mixLimit
  rw [half_zero]
  have h2 : Real.log (1 / 2) < 0 := Real.log_neg (by norm_num) (by norm_num)
  have h3 := Real.log_two_gt_d9
  have h4 : Real.log (1 / 2) = -Real.log 2 := by rw [one_div, Real.log_inv]
  rw [abs_of_neg h2]
  simp only []
  rw [abs_of_pos (by linarith), h4]
  rintro ⟨_, h⟩
  norm_num at h h3
  linarith

example : ∃ m d, mk 1 [0, 1] [1 / 2, 1 / 2] true (-50) .remove = .ok m ∧ m.getDelta 1 = .ok d ∧ ∀ δ,
    IsHs (mixUpper 1 ([0, 1].zip [1 / 2, 1 / 2]) .remove) (mixLower 1 ([0, 1].zip [1 / 2, 1 / 2]) .remove) 1 δ →
      d ≤ δ ∧ δ ≤ d + mixError 1 1 ([0, 1].zip [1 / 2, 1 / 2]) := by
  have hm := (mk_iff 1 [0, 1] [1 / 2, 1 / 2] true (-50) .remove).1 half_ok
  obtain ⟨d, h1, h2⟩ := C70_delta_single hm (by norm_num) (s := 1) (fun c hc => by
    simp only [List.zip_cons_cons, List.zip_nil_right, List.mem_cons, List.not_mem_nil, or_false] at hc
    rcases hc with rfl | rfl <;> norm_num) zero_le_one (half_not_near zero_le_one)
  exact ⟨_, d, hm, h1, h2⟩

/-- Several sensitivities, in an array with an epsilon that is attained at zero. -/
example : ∃ m ds, mk 1 [1, 2] [1 / 2, 1 / 2] true (-50) .remove = .ok m ∧ m.getDeltas [m.privacyLoss 0, m.privacyLoss (-3 / 2)] = .ok ds ∧
    List.Forall₂ (fun e d => ∀ δ, IsHs (mixUpper 1 ([1, 2].zip [1 / 2, 1 / 2]) .remove) (mixLower 1 ([1, 2].zip [1 / 2, 1 / 2]) .remove) e δ →
      d ≤ δ ∧ δ ≤ d + mixError 1 2 ([1, 2].zip [1 / 2, 1 / 2])) [m.privacyLoss 0, m.privacyLoss (-3 / 2)] ds := by
  have hmem : ∀ c ∈ ([1, 2] : List ℝ).zip [(1 / 2 : ℝ), 1 / 2], c = (1, 1 / 2) ∨ c = (2, 1 / 2) := fun c hc => by
    simpa only [List.zip_cons_cons, List.zip_nil_right, List.mem_cons, List.not_mem_nil, or_false] using hc
  have hm := (mk_iff 1 [1, 2] [1 / 2, 1 / 2] true (-50) .remove).1 ⟨one_pos, by norm_num, rfl, fun c hc _ => by
    rcases hmem c hc with rfl | rfl <;> norm_num, ⟨(1, 1 / 2), by simp, by norm_num, by norm_num⟩, by unfold Mech.IsClose; norm_num,
    fun c hc => by rcases hmem c hc with rfl | rfl <;> norm_num⟩
  have h1 : ((([1, 2] : List ℝ).zip [(1 / 2 : ℝ), 1 / 2]).map Prod.snd).sum = 1 := by norm_num
  have hz : zeroProb ([1, 2].zip [1 / 2, 1 / 2]) = 0 := by unfold zeroProb; simp
  have hn : ∀ e, ¬ NearLimit ([1, 2].zip [1 / 2, 1 / 2]) .remove e := fun e h => by
    have := h.1; rw [hz] at this; exact lt_irrefl _ this
  set m : Obj := ⟨1, kept [1, 2] [1 / 2, 1 / 2], .remove, true, -50⟩
  obtain ⟨ds, h2, h3⟩ := C70_delta hm h1 (S := 2) (fun c hc => by rcases hmem c hc with rfl | rfl <;> norm_num)
    (eps := [m.privacyLoss 0, m.privacyLoss (-3 / 2)]) (by
      rw [List.pairwise_pair]
      exact (C70_loss hm h1).2.antitone (show (-3 / 2 : ℝ) ≤ 0 by norm_num)) ⟨0, by simp, hn _⟩
      (F := [m.privacyLoss 0, m.privacyLoss (-3 / 2)]) (fun e =>
        ⟨fun h => ⟨h, hn e⟩, fun h => h.1⟩) (.inl ⟨0, by simp, fun c hc _ => by rcases hmem c hc with rfl | rfl <;> norm_num⟩)
  exact ⟨_, ds, hm, h2, h3⟩

/-- An epsilon just above the limit raises. -/
example : ∃ m, mk 1 [0, 1] [1 / 2, 1 / 2] true (-50) .remove = .ok m ∧ m.getDelta (Real.log (1 / 2) + 1e-9) = .error .valueError := by
  have hm := (mk_iff 1 [0, 1] [1 / 2, 1 / 2] true (-50) .remove).1 half_ok
  have h1 : ((([0, 1] : List ℝ).zip [(1 / 2 : ℝ), 1 / 2]).map Prod.snd).sum = 1 := by norm_num
  obtain ⟨_, h⟩ := mixture_good hm h1
  set m : Obj := ⟨1, kept [0, 1] [1 / 2, 1 / 2], .remove, true, -50⟩ with hm'
  have hz := Obj.zeroProb_eq h
  rw [show m.comps = kept [0, 1] [1 / 2, 1 / 2] from rfl, zeroProb_kept, half_zero] at hz
  have hin : m.InRange (Real.log (1 / 2) + 1e-9) := by
    unfold Obj.InRange
    rw [← hz]
    change 1 / 2 < Real.exp _
    rw [Real.exp_add, Real.exp_log (by norm_num)]
    have : 1 < Real.exp 1e-9 := Real.one_lt_exp_iff.2 (by norm_num)
    linarith
  obtain ⟨z, hz'⟩ := (Obj.inRange_iff h _).1 hin
  refine ⟨m, hm, (C70_raises hm h1 (List.pairwise_singleton _ _) ⟨z, by rw [hz']; simp⟩ fun w hw => ?_).2 _ rfl⟩
  rw [List.mem_singleton] at hw
  rw [hw]
  refine ⟨by rw [half_zero]; norm_num, ?_⟩
  unfold mixLimit
  rw [half_zero]
  have : 0 ≤ |Real.log (1 / 2)| := abs_nonneg _
  simp only [add_sub_cancel_left]
  rw [abs_of_pos (by norm_num)]
  norm_num at ⊢
  linarith

/-- The error is small. -/
example : mixError 1 1 ([0, 1].zip [1 / 2, 1 / 2]) ≤ 1e-5 := by
  unfold mixError
  rw [half_zero, if_pos (by norm_num)]
  have h4 : Real.log (1 / 2) = -Real.log 2 := by rw [one_div, Real.log_inv]
  rw [h4, abs_neg, abs_of_pos (Real.log_pos (by norm_num))]
  refine max_le ?_ ?_
  · have hs : (√(2 * Real.pi * 1 ^ 2))⁻¹ ≤ 1 := by
      refine inv_le_one_of_one_le₀ ?_
      rw [Real.one_le_sqrt]
      nlinarith [Real.two_le_pi]
    have h0 : 0 ≤ (√(2 * Real.pi * 1 ^ 2))⁻¹ := by positivity
    have he : Real.exp (1 * 1e-6 / 1 ^ 2) ≤ 3 := by
      have := Real.exp_one_lt_d9
      have : Real.exp (1 * 1e-6 / 1 ^ 2) ≤ Real.exp 1 := Real.exp_le_exp.2 (by norm_num)
      linarith
    have h1 : 1 ≤ Real.exp (1 * 1e-6 / 1 ^ 2) := Real.one_le_exp (by norm_num)
    calc _ ≤ 1 * 1e-6 * (3 - 1 : ℝ) := by gcongr
      _ ≤ _ := by norm_num
  · have := Real.log_two_lt_d9
    norm_num at this ⊢
    linarith

/-- A standard use: both directions of a distribution exist and bound the divergences. -/
example (ppf : ℝ → ℝ → ℝ) (hppf : NormalQuantile ppf) : ∃ fuel p, fromMixture fuel (ppf 1) 1 [0, 1] [1 / 2, 1 / 2] 1e-4 (-50) = some (.ok p) ∧
    ∀ ε adj, Indist (mixUpper 1 ([0, 1].zip [1 / 2, 1 / 2]) adj) (mixLower 1 ([0, 1].zip [1 / 2, 1 / 2]) adj) ε
      (p.getDeltaForEpsilon ε + mixError 1 1 ([0, 1].zip [1 / 2, 1 / 2])) := by
  have hmem : ∀ c ∈ ([0, 1] : List ℝ).zip [(1 / 2 : ℝ), 1 / 2], c = (0, 1 / 2) ∨ c = (1, 1 / 2) := fun c hc => by
    simpa only [List.zip_cons_cons, List.zip_nil_right, List.mem_cons, List.not_mem_nil, or_false] using hc
  obtain ⟨N, hN⟩ := C70_pld_exists (ppf := ppf) (σ := 1) (lb := -50) (disc := 1e-4) (sens := [0, 1]) (probs := [1 / 2, 1 / 2]) hppf one_pos
    (by norm_num) (by norm_num) rfl (fun c hc => by rcases hmem c hc with rfl | rfl <;> norm_num) ⟨(1, 1 / 2), by simp, by norm_num⟩ (by norm_num) (by
      refine .inr ⟨-3000, ?_, ?_⟩
      · have h4 : Real.log (1 / 2) = -Real.log 2 := by rw [one_div, Real.log_inv]
        have h3 := Real.log_two_gt_d9
        have h5 := Real.log_two_lt_d9
        rw [half_zero, h4, abs_neg, abs_of_pos (Real.log_pos (by norm_num))]
        norm_num at h3 h5 ⊢
        linarith
      · unfold mixLogRatio
        rw [Real.le_log_iff_exp_le (by simp; positivity)]
        simp only [List.zip_cons_cons, List.zip_nil_right, List.map_cons, List.map_nil, List.sum_cons, List.sum_nil]
        have e1 : Real.exp (-(1 / 2)) ≥ 1 / 2 := by
          have := Real.add_one_le_exp (-(1 / 2))
          linarith
        have e2 : Real.exp (((-3000 : ℤ) : ℝ) * 1e-4) ≤ 3 / 4 + 1 / 50 := by
          have : ((-3000 : ℤ) : ℝ) * 1e-4 = -(3 / 10) := by norm_num
          rw [this, Real.exp_neg, inv_le_comm₀ (Real.exp_pos _) (by norm_num)]
          have := Real.quadratic_le_exp_of_nonneg (x := 3 / 10) (by norm_num)
          norm_num at this ⊢
          linarith
        have e3 : Real.exp ((1 * 0 - 1 ^ 2 / 2) / 1 ^ 2) ≥ 3 / 5 := by
          have : ((1 * 0 - 1 ^ 2 / 2) / 1 ^ 2 : ℝ) = -(1 / 2) := by norm_num
          rw [this, Real.exp_neg, ge_iff_le, le_inv_comm₀ (by norm_num) (Real.exp_pos _)]
          have h1 := Real.exp_one_lt_d9
          have h2 : Real.exp (1 / 2) ^ 2 = Real.exp 1 := by rw [← Real.exp_nat_mul]; norm_num
          have : Real.exp (1 / 2) ^ 2 ≤ (5 / 3) ^ 2 := by rw [h2]; norm_num at h1 ⊢; linarith
          have := abs_le_of_sq_le_sq this (by norm_num)
          norm_num
          exact (le_abs_self _).trans this
        norm_num at e2 e3 ⊢
        linarith)
  obtain ⟨p, hp⟩ := hN N le_rfl
  refine ⟨N, p, hp, fun ε adj => (C70_pld hppf (by norm_num) (by norm_num) (by norm_num) (s := 1) (S := 1) ⟨(1, 1 / 2), by simp, by norm_num, rfl⟩
    one_pos (fun c hc _ h0 => ?_) (fun c hc => ?_) (C70_disc one_pos (fun c hc => ?_) (by norm_num) one_pos (fun c hc => ?_) ?_ _) hp ε).1 adj⟩
  · rcases hmem c hc with rfl | rfl
    · exact absurd h0 (lt_irrefl _)
    · exact le_rfl
  · rcases hmem c hc with rfl | rfl <;> norm_num
  · rcases hmem c hc with rfl | rfl <;> norm_num
  · rcases hmem c hc with rfl | rfl <;> norm_num
  · rw [half_zero]; norm_num

end Verif.Props
