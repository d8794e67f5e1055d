import Verif.Proofs.RdpMilderNear

/-!
# C81: milder events and the RDP accountant, with the library's own series

`Milder`, `MilderAll`, `GaussianQueries` as in C81 (`Verif/Spec/Milder.lean`); `orderSlack` (C62) and `sampleExcess` (C88) bound by how much the
truncated series of one Poisson-sampled event is below or above the exact value; both are zero at integer orders.
-/

namespace Verif.Props
open Verif Verif.Spec Verif.Rdp Verif.RdpConv Verif.Frac MeasureTheory ProbabilityTheory

lemma sum_le_add {β : Type*} (L : List β) (f g : β → EReal) (c : β → ℝ) (h : ∀ a ∈ L, f a ≤ g a + (c a : EReal)) :
    (L.map f).sum ≤ (L.map g).sum + (((L.map c).sum : ℝ) : EReal) := by
  induction L with
  | nil => simp
  | cons a L ih =>
    simp only [List.map_cons, List.sum_cons, EReal.coe_add]
    refine (add_le_add (h a (by simp)) (ih fun b hb => h b (by simp [hb]))).trans (le_of_eq (add_add_add_comm _ _ _ _))

lemma poissonEvents_sum (L : List DpEvent) (c : ℝ) : (L.map fun a => (poissonEvents [a] : ℝ) * c).sum = poissonEvents L * c := by
  induction L with
  | nil => simp [poissonEvents]
  | cons a L ih =>
    rw [List.map_cons, List.sum_cons, ih, ← add_mul]
    congr 1
    have : poissonEvents (a :: L) = poissonEvents [a] + poissonEvents L := by
      unfold poissonEvents
      rw [← List.countP_append]; rfl
    rw [this]; push_cast; ring

/-- **C81 (partial), the values, with the series of the library.** If each event of one history is milder than its own event of another, then a
finite value after the first is above the value after the second by at most the truncation errors of the Poisson-sampled events of both; these are
zero at integer orders. Missing: `RepeatAndSelect`, orders below or at 1, and values that are infinite because the series diverged. -/
theorem C81_rdp_library_partial {n : ℕ} (orders : Fin n → ℝ) (ho : ∀ i, 1 < orders i) (nr : NeighborRel) (l l' : List (DpEvent × ℤ))
    (hl : ∀ p ∈ l, WfCounts p.1) (hl' : ∀ p ∈ l', WfCounts p.1) (hacc : Accepted orders logAFrac nr l) (hacc' : Accepted orders logAFrac nr l')
    (hrep : ∀ e m s, .repeatAndSelect e m s ∉ historyEvents l) (hrep' : ∀ e m s, .repeatAndSelect e m s ∉ historyEvents l')
    (hg : ∀ q e, .poissonSampled q e ∈ historyEvents l → GaussianQueries e) (h : MilderAll (historyEvents l) (historyEvents l')) (i : Fin n)
    (hfin : rdpAfter orders logAFrac nr l i ≠ ⊤) :
    rdpAfter orders logAFrac nr l i ≤ rdpAfter orders logAFrac nr l' i +
      ((poissonEvents (historyEvents l') * orderSlack (orders i) + ((historyEvents l).map (sampleExcess (orders i))).sum : ℝ) : EReal) := by
  have ho1 : ∀ i, 1 ≤ orders i := fun i => (ho i).le
  have elem : ∀ (l : List (DpEvent × ℤ)), ∀ a ∈ historyEvents l, RdpAccountant.Elementary a := by
    intro l a ha
    obtain ⟨p, hp, hap⟩ := List.mem_flatMap.1 ha
    exact RdpAccountant.elementary_of_mem _ _ (repeatList_mem hap)
  obtain ⟨h1, h2⟩ := rdpAfter_sum hl hacc
  obtain ⟨h1', h2'⟩ := rdpAfter_sum hl' hacc'
  have at1 := fun a ha => atom_exact ho nr (elem l a ha) (fun e' m s hc => hrep e' m s (hc ▸ ha)) (h1 a ha).2
  have at2 := fun a ha => atom_exact ho nr (elem l' a ha) (fun e' m s hc => hrep' e' m s (hc ▸ ha)) (h1' a ha).2
  have mid := (milder_curve ho1 (exactMoments_nonneg ho1) (exactMoments_exact orders) nr).2 _ _ h
    (fun a ha => ⟨(h1 a ha).1, (at1 a ha).1⟩) (fun a ha => ⟨(h1' a ha).1, (at2 a ha).1⟩) i
  have hF := libFns_nonneg orders ho1 exactMoments (exactMoments_nonneg ho1)
  have hne := (sum_ne_top (l := (historyEvents l).map fun a => RdpAccountant.curve (libFns orders logAFrac) nr a i) (by
    intro x hx
    obtain ⟨a, ha, rfl⟩ := List.mem_map.1 hx
    intro hb
    have h3 := ((at1 a ha).2 i).1
    rw [hb, EReal.bot_add] at h3
    have h4 := (RdpAccountant.curve_nonneg _ nr hF (h1 a ha).1 i).trans h3
    simp at h4)).2 (by rw [← h2]; exact hfin)
  have up := sum_le_add (historyEvents l) (fun a => RdpAccountant.curve (libFns orders logAFrac) nr a i)
    (fun a => RdpAccountant.curve (libFns orders exactMoments) nr a i) (sampleExcess (orders i)) fun a ha =>
      ((at1 a ha).2 i).2 (fun q e' hc => hg q e' (hc ▸ ha)) (hne _ (List.mem_map.2 ⟨a, ha, rfl⟩))
  have down := sum_le_add (historyEvents l') (fun a => RdpAccountant.curve (libFns orders exactMoments) nr a i)
    (fun a => RdpAccountant.curve (libFns orders logAFrac) nr a i) (fun a => (poissonEvents [a] : ℝ) * orderSlack (orders i)) fun a ha => ((at2 a ha).2 i).1
  rw [poissonEvents_sum] at down
  rw [h2, h2', EReal.coe_add, ← add_assoc]
  exact up.trans (add_le_add (mid.trans down) le_rfl)

lemma epsFor_shift {a delta c : ℝ} {r r' : EReal} (hc : 0 ≤ c) (h : r ≤ r' + (c : EReal)) (hp : 0 < epsFor a r' delta) :
    epsFor a r delta ≤ epsFor a r' delta + (c : EReal) := by
  have hc' : (0 : EReal) ≤ (c : EReal) := by exact_mod_cast hc
  have hpos := add_nonneg hp.le hc'
  revert hp hpos
  generalize hE : epsFor a r' delta = E
  intro hp hpos
  unfold epsFor at hE ⊢
  split_ifs at hE ⊢ <;> first
    | exact hpos
    | (exfalso; rw [← hE] at hp; exact lt_irrefl _ hp)
    | (rw [← hE]; simp; done)
    | skip
  rw [← hE]
  generalize Real.log (1 + -1 / a) = u
  generalize Real.log (delta * a) / (a - 1) = v
  calc r + (u : EReal) - (v : EReal) ≤ (r' + (c : EReal)) + (u : EReal) - (v : EReal) := by
        exact EReal.sub_le_sub (add_le_add h le_rfl) le_rfl
    _ = r' + (u : EReal) - (v : EReal) + (c : EReal) := by
        rw [sub_eq_add_neg, sub_eq_add_neg, add_right_comm r', add_right_comm]

/-- **C81 (partial), `get_epsilon`, with the series of the library.** If all values after the milder history are finite and the epsilon of the
harsher history is positive, then the epsilon of the milder history is above it by at most the truncation errors. Missing: as above. -/
theorem C81_get_epsilon_library_partial {n : ℕ} (orders : Fin n → ℝ) (ho : ∀ i, 1 < orders i) (nr : NeighborRel) (l l' : List (DpEvent × ℤ))
    (hl : ∀ p ∈ l, WfCounts p.1) (hl' : ∀ p ∈ l', WfCounts p.1) (hacc : Accepted orders logAFrac nr l) (hacc' : Accepted orders logAFrac nr l')
    (hrep : ∀ e m s, .repeatAndSelect e m s ∉ historyEvents l) (hrep' : ∀ e m s, .repeatAndSelect e m s ∉ historyEvents l')
    (hg : ∀ q e, .poissonSampled q e ∈ historyEvents l → GaussianQueries e) (h : MilderAll (historyEvents l) (historyEvents l'))
    (hfin : ∀ i, rdpAfter orders logAFrac nr l i ≠ ⊤) (η : ℝ)
    (hη : ∀ i, poissonEvents (historyEvents l') * orderSlack (orders i) + ((historyEvents l).map (sampleExcess (orders i))).sum ≤ η)
    (delta a a' : ℝ) (hd : 0 < delta) (eps eps' : EReal)
    (he : computeEpsilon (List.ofFn orders) (List.ofFn (rdpAfter orders logAFrac nr l)) delta = .ok (eps, a))
    (he' : computeEpsilon (List.ofFn orders) (List.ofFn (rdpAfter orders logAFrac nr l')) delta = .ok (eps', a')) (hpos : 0 < eps') :
    eps ≤ eps' + (η : EReal) := by
  obtain ⟨hl1, _, x, hx, _, hev, hm⟩ := computeEpsilon_ok hd he
  obtain ⟨hl1', ho', x', hx', _, hev', _⟩ := computeEpsilon_ok hd he'
  obtain ⟨k, hk, rfl⟩ := List.getElem_of_mem hx'
  have hkn : k < n := by simpa using hk
  have hi1 : k < ((List.ofFn orders).zip (List.ofFn (rdpAfter orders logAFrac nr l))).length := by simpa using hkn
  have h1 := hm _ (List.getElem_mem hi1)
  simp only [List.getElem_zip, List.getElem_ofFn] at h1 hev'
  have hr := C81_rdp_library_partial orders ho nr l l' hl hl' hacc hacc' hrep hrep' hg h ⟨k, hkn⟩ (hfin _)
  set c := (poissonEvents (historyEvents l') * orderSlack (orders ⟨k, hkn⟩) + ((historyEvents l).map (sampleExcess (orders ⟨k, hkn⟩))).sum : ℝ) with hcdef
  have hc0 : 0 ≤ c := by
    refine add_nonneg (mul_nonneg (Nat.cast_nonneg _) (orderSlack_nonneg (ho _).le)) (List.sum_nonneg ?_)
    intro y hy
    obtain ⟨e, _, rfl⟩ := List.mem_map.1 hy
    cases e with
    | poissonSampled q e => exact eventExcess_nonneg (ho ⟨k, hkn⟩) (.poissonSampled q e)
    | _ => exact le_rfl
  have hce : (c : EReal) ≤ (η : EReal) := by exact_mod_cast hη _
  have hη0 : (0 : EReal) ≤ (η : EReal) := le_trans (by exact_mod_cast hc0) hce
  rw [hev'] at hpos ⊢
  rw [hev]
  have hE : 0 < epsFor (orders ⟨k, hkn⟩) (rdpAfter orders logAFrac nr l' ⟨k, hkn⟩) delta := by
    rcases lt_max_iff.1 hpos with h | h
    · exact absurd h (lt_irrefl _)
    · exact h
  rw [max_eq_right hE.le]
  refine max_le (add_nonneg hE.le hη0) (h1.trans ((epsFor_shift hc0 hr hE).trans (add_le_add le_rfl hce)))

/-- **C81 (partial), DP-SGD, with the series of the library.** The accountant accepts the runs; with fewer steps, a smaller sampling probability
and more noise, a finite value is above the value of the other run by at most the truncation errors of the steps of both. Missing: as above. -/
theorem C81_dp_sgd_library_partial {k : ℕ} (orders : Fin k → ℝ) (ho : ∀ i, 1 < orders i) (nr : NeighborRel) (hnr : nr ≠ .replaceOne)
    (q q' z z' : PyNum) (n n' : ℤ) (hn : 1 ≤ n) (hnn : n ≤ n') (hq0 : 0 ≤ q.val) (hq : q.val ≤ q'.val) (hq1 : q'.val ≤ 1) (hz0 : 0 ≤ z'.val)
    (hz : z'.val ≤ z.val) (hzp : 0 < z.val) (hzt : z.val ≠ ⊤) :
    (Accepted orders logAFrac nr (sgdRun q z n) ∧ Accepted orders logAFrac nr (sgdRun q' z' n')) ∧
    ∀ i, rdpAfter orders logAFrac nr (sgdRun q z n) i ≠ ⊤ → rdpAfter orders logAFrac nr (sgdRun q z n) i ≤
      rdpAfter orders logAFrac nr (sgdRun q' z' n') i +
        ((n' * orderSlack (orders i) + n * sampleExcess (orders i) (.poissonSampled q (.gaussian z)) : ℝ) : EReal) := by
  obtain ⟨w, acc⟩ := sgd_accepted (fun i => ho i) logAFrac hnr hq0 (hq.trans hq1) (hz0.trans hz) hn
  obtain ⟨w', acc'⟩ := sgd_accepted (fun i => ho i) logAFrac hnr (hq0.trans hq) hq1 hz0 (hn.trans hnn)
  refine ⟨⟨acc, acc'⟩, fun i hfin => ?_⟩
  have hm : MilderAll (historyEvents (sgdRun q z n)) (historyEvents (sgdRun q' z' n')) := by
    rw [sgd_history, sgd_history]
    exact milder_replicate (.sampled q q' z z' hq hz hzt) (by omega)
  have key := C81_rdp_library_partial orders ho nr _ _ w w' acc acc' (by
      intro e m s hc; rw [sgd_history] at hc; exact absurd (List.eq_of_mem_replicate hc) (by simp)) (by
      intro e m s hc; rw [sgd_history] at hc; exact absurd (List.eq_of_mem_replicate hc) (by simp)) (by
      intro p e hc
      rw [sgd_history] at hc
      have := List.eq_of_mem_replicate hc
      simp only [DpEvent.poissonSampled.injEq] at this
      rw [this.2]
      exact .inl ⟨z, rfl, hzp, hzt⟩) hm i hfin
  refine key.trans (le_of_eq ?_)
  congr 2
  rw [sgd_history, sgd_history, List.map_replicate, List.sum_replicate, nsmul_eq_mul]
  have e1 : (poissonEvents (List.replicate n'.toNat (.poissonSampled q' (.gaussian z'))) : ℝ) = n' := by
    have : poissonEvents (List.replicate n'.toNat (.poissonSampled q' (.gaussian z'))) = n'.toNat := by
      unfold poissonEvents; rw [List.countP_replicate]; simp
    rw [this]
    have := Int.toNat_of_nonneg (by omega : 0 ≤ n')
    exact_mod_cast this
  have e2 : ((n.toNat : ℕ) : ℝ) = n := by
    have := Int.toNat_of_nonneg (by omega : 0 ≤ n)
    exact_mod_cast this
  rw [e1, e2]

/-- At integer orders there is no error. -/
lemma sampleExcess_integer {m : ℤ} (e : DpEvent) : sampleExcess (m : ℝ) e = 0 := by
  cases e with
  | poissonSampled q e =>
    simp only [sampleExcess, eventExcess]
    split_ifs
    · simp [fracExcess]
    · rfl
  | _ => rfl

/-- A concrete case: one step with the sampling probability `exp (-80)` at the order 5/2, where the series converges, against the same step without
sampling. -/
example : rdpAfter (fun _ : Fin 1 => 5 / 2) logAFrac .addOrRemoveOne (sgdRun (.float (Real.exp (-80))) (.float 1) 1) 0 ≠ ⊤ ∧
    rdpAfter (fun _ : Fin 1 => 5 / 2) logAFrac .addOrRemoveOne (sgdRun (.float (Real.exp (-80))) (.float 1) 1) 0 ≤
      rdpAfter (fun _ : Fin 1 => 5 / 2) logAFrac .addOrRemoveOne (sgdRun (.float 1) (.float 1) 2) 0 +
        ((((2 : ℤ) : ℝ) * orderSlack (5 / 2) + ((1 : ℤ) : ℝ) * sampleExcess (5 / 2) (.poissonSampled (.float (Real.exp (-80))) (.gaussian (.float 1))) : ℝ) : EReal) := by
  obtain ⟨h0, h1⟩ := witness_q
  have hv := (C81_infinite_noise_violated .addOrRemoveOne (by simp)).2.1
  have hfin : rdpAfter (fun _ : Fin 1 => 5 / 2) logAFrac .addOrRemoveOne (sgdRun (.float (Real.exp (-80))) (.float 1) 1) 0 ≠ ⊤ := hv.ne
  refine ⟨hfin, (C81_dp_sgd_library_partial (fun _ : Fin 1 => 5 / 2) (fun _ => by norm_num) .addOrRemoveOne (by simp) (.float (Real.exp (-80))) (.float 1)
    (.float 1) (.float 1) 1 2 le_rfl (by norm_num) (by simpa [PyNum.val] using h0.le) (by simpa [PyNum.val] using EReal.coe_le_coe_iff.2 (by linarith : Real.exp (-80) ≤ 1))
    (by simp [PyNum.val]) (by simp [PyNum.val]) le_rfl (by simp [PyNum.val]) (by simpa [PyNum.val] using EReal.coe_ne_top 1)).2 0 hfin⟩

end Verif.Props
