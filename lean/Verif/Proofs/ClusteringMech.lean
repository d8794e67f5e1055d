import Verif.Proofs.ClusteringTree
import Verif.Proofs.ProductDominates
import Verif.Proofs.AdditiveNoiseInst
import Verif.Spec.ClusteringMech
import Mathlib.Probability.Kernel.Composition.MeasureComp
import Mathlib.Data.Set.Finite.List

/-! # Proofs: the coreset as a function of noisy counts and noisy sums -/

namespace Verif.Clustering
open MeasureTheory ProbabilityTheory Verif.Spec
open scoped RealInnerProductSpace

variable {d : ℕ}

/-! ### Measurability -/

lemma measurable_ofFn {α : Type*} [MeasurableSpace α] (n : ℕ) : Measurable (List.ofFn : (Fin n → α) → List α) := by
  rw [measurable_iff_le_map]
  exact iInf_le (fun n : ℕ => (inferInstance : MeasurableSpace (Fin n → α)).map List.ofFn) n

lemma measurable_ok {ε α : Type*} [MeasurableSpace α] : Measurable (Except.ok : α → Except ε α) := by
  rw [measurable_iff_le_map]
  exact inf_le_right

lemma measurable_list_map {Ω ι α : Type*} [MeasurableSpace Ω] [MeasurableSpace α] (l : List ι) (f : ι → Ω → α) (hf : ∀ i, Measurable (f i)) :
    Measurable fun ω => l.map fun i => f i ω := by
  have : (fun ω => l.map fun i => f i ω) = fun ω => List.ofFn fun j : Fin l.length => f (l.get j) ω := by
    ext1 ω
    apply List.ext_getElem
    · simp
    · intro i h1 h2
      simp
  rw [this]
  exact (measurable_ofFn _).comp (measurable_pi_lambda _ fun j => hf _)

lemma measurableSet_inPrefix (p : List Bool) (x : Point d) : MeasurableSet {v : ℕ → Point d | InPrefix v p x} := by
  induction p using List.reverseRecOn with
  | nil => simp [inPrefix_nil]
  | append_singleton p b ih =>
    simp only [inPrefix_snoc]
    refine ih.inter ?_
    have h : MeasurableSet {v : ℕ → Point d | ⟪x, v p.length⟫ < 0} := measurableSet_lt (by fun_prop) measurable_const
    cases b
    · have he : {v : ℕ → Point d | decide (⟪x, v p.length⟫ < 0) = false} = {v : ℕ → Point d | ⟪x, v p.length⟫ < 0}ᶜ := by
        ext v
        simp
      have hc := h.compl
      rw [← he] at hc
      exact hc
    · have he : {v : ℕ → Point d | decide (⟪x, v p.length⟫ < 0) = true} = {v : ℕ → Point d | ⟪x, v p.length⟫ < 0} := by
        ext v
        simp
      rw [← he] at h
      exact h

open Classical in
lemma measurable_cnt (pts : List (Point d)) (p : List Bool) :
    Measurable fun v : ℕ → Point d => ((pts.filter fun x => decide (InPrefix v p x)).length : ℤ) := by
  induction pts with
  | nil => simp
  | cons x pts ih =>
    have : (fun v : ℕ → Point d => (((x :: pts).filter fun x => decide (InPrefix v p x)).length : ℤ)) =
        fun v => (if InPrefix v p x then 1 else 0) + ((pts.filter fun x => decide (InPrefix v p x)).length : ℤ) := by
      ext v
      by_cases h : InPrefix v p x <;> simp [h, add_comm]
    rw [this]
    exact (Measurable.ite (measurableSet_inPrefix p x) measurable_const measurable_const).add ih

lemma measurable_prefixSum (pts : List (Point d)) (p : List Bool) : Measurable fun v : ℕ → Point d => prefixSum v pts p := by
  classical
  induction pts with
  | nil => simp [prefixSum]
  | cons x pts ih =>
    have : (fun v : ℕ → Point d => prefixSum v (x :: pts) p) = fun v => (if InPrefix v p x then x else 0) + prefixSum v pts p := by
      ext1 v
      unfold prefixSum
      by_cases h : InPrefix v p x <;> simp [h]
    rw [this]
    exact (Measurable.ite (measurableSet_inPrefix p x) measurable_const measurable_const).add ih

/-! ### The coreset as a function of the noisy counts and sums of the prefixes up to the maximal depth -/

/-- The prefixes up to length `D`. -/
noncomputable def prefixes (D : ℕ) : Finset (List Bool) := (List.finite_length_le Bool D).toFinset

lemma mem_prefixes {D : ℕ} {p : List Bool} : p ∈ prefixes D ↔ p.length ≤ D := by simp [prefixes]

/-- Extension by zero. -/
noncomputable def ext {D : ℕ} {M : Type*} [Zero M] (c : prefixes D → M) (p : List Bool) : M :=
  if h : p ∈ prefixes D then c ⟨p, h⟩ else 0

lemma ext_mem {D : ℕ} {M : Type*} [Zero M] (c : prefixes D → M) {p : List Bool} (h : p.length ≤ D) : ext c p = c ⟨p, mem_prefixes.2 h⟩ := by
  unfold ext
  rw [dif_pos (mem_prefixes.2 h)]

lemma measurable_ext {D : ℕ} {M : Type*} [Zero M] [MeasurableSpace M] (p : List Bool) : Measurable fun c : prefixes D → M => ext c p := by
  unfold ext
  by_cases h : p ∈ prefixes D
  · simp only [h, dite_true]
    exact measurable_pi_apply _
  · simp only [h, dite_false]
    exact measurable_const

/-- The leaves and their counts, from the counts. -/
noncomputable def leavesOf {D : ℕ} (T : ℤ → TreeParam) (c : prefixes D → ℤ) : List (List Bool × ℤ) :=
  skelLeaves (skeleton (T (ext c [])) (ext c) (max 1 (ext c [])))

/-- The coreset, from the counts and the sums. -/
noncomputable def outOf {D : ℕ} (T : ℤ → TreeParam) (R : ℝ) (cs : (prefixes D → ℤ) × (prefixes D → Point d)) : List (Point d × ℤ) :=
  (leavesOf T cs.1).map fun k =>
    (let y := (k.2 : ℝ)⁻¹ • ext cs.2 k.1
     (clipScale R y • y, k.2))

lemma measurable_outOf {D : ℕ} (T : ℤ → TreeParam) (R : ℝ) : Measurable (outOf T R : (prefixes D → ℤ) × (prefixes D → Point d) → List (Point d × ℤ)) := by
  refine measurable_from_prod_countable_right fun c => ?_
  unfold outOf
  refine measurable_list_map (α := Point d × ℤ) (leavesOf T c) (fun k (s : prefixes D → Point d) =>
    (clipScale R ((k.2 : ℝ)⁻¹ • ext s k.1) • (k.2 : ℝ)⁻¹ • ext s k.1, k.2)) fun k => ?_
  have h := (measurable_ext (D := D) (M := Point d) k.1).const_smul ((k.2 : ℝ)⁻¹)
  have hs : Measurable fun s : prefixes D → Point d => clipScale R ((k.2 : ℝ)⁻¹ • ext s k.1) := by
    unfold clipScale
    exact measurable_const.div (h.norm.max measurable_const)
  exact (hs.smul h).prodMk measurable_const

open Classical in
/-- The number of points with a prefix. -/
noncomputable def cnt (v : ℕ → Point d) (pts : List (Point d)) (p : List Bool) : ℤ := (pts.filter fun x => decide (InPrefix v p x)).length

/-- The noisy counts and sums. -/
noncomputable def noisyData {D : ℕ} (σ : ℝ) (pts : List (Point d)) (w : (ℕ → Point d) × (prefixes D → ℤ) × (prefixes D → Point d)) :
    (prefixes D → ℤ) × (prefixes D → Point d) :=
  (fun p => cnt w.1 pts p + w.2.1 p, fun p => prefixSum w.1 pts p + σ • w.2.2 p)

lemma measurable_noisyData {D : ℕ} (σ : ℝ) (pts : List (Point d)) : Measurable (noisyData (D := D) σ pts) := by
  unfold noisyData
  refine Measurable.prodMk (measurable_pi_lambda _ fun p => ?_) (measurable_pi_lambda _ fun p => ?_)
  · exact ((measurable_cnt pts p).comp measurable_fst).add (by fun_prop)
  · exact ((measurable_prefixSum pts p).comp measurable_fst).add (by fun_prop)

/-- Restriction of the draws to the prefixes up to the maximal depth. -/
noncomputable def restrictDraws (D : ℕ) (w : (ℕ → Point d) × (List Bool → ℤ) × (List Bool → Point d)) :
    (ℕ → Point d) × (prefixes D → ℤ) × (prefixes D → Point d) := (w.1, (prefixes D).restrict w.2.1, (prefixes D).restrict w.2.2)

/-- The tree parameters as a function of the noisy count of all points. -/
noncomputable def treeOf (σ radius : ℝ) (k : ℤ) (dim : ℕ) (depth : ℤ) : Option TreeParam → ℤ → TreeParam
  | some t, _ => t
  | none, c =>
    let m := max 1 (min (pyInt (10 * Real.sqrt dim * σ / radius)) (Int.fdiv c (2 * k)))
    ⟨3 * m, m, depth⟩

lemma outOf_eq {D : ℕ} (T : ℤ → TreeParam) (hD : ∀ z, (T z).maxDepth.toNat = D) (R σ : ℝ) (pts : List (Point d)) (v : ℕ → Point d)
    (n : List Bool → ℤ) (g : List Bool → Point d) :
    outOf T R (noisyData σ pts (restrictDraws D (v, n, g))) =
      (skelLeaves (skeleton (T (cnt v pts [] + n [])) (fun p => cnt v pts p + n p) (max 1 (cnt v pts [] + n [])))).map fun k =>
      (let y := (k.2 : ℝ)⁻¹ • (prefixSum v pts k.1 + σ • g k.1)
       (clipScale R y • y, k.2)) := by
  have h0 : ext (noisyData σ pts (restrictDraws D (v, n, g))).1 [] = cnt v pts [] + n [] := ext_mem _ (by simp)
  have hl : leavesOf T (noisyData σ pts (restrictDraws D (v, n, g))).1 =
      skelLeaves (skeleton (T (cnt v pts [] + n [])) (fun p => cnt v pts p + n p) (max 1 (cnt v pts [] + n []))) := by
    unfold leavesOf
    rw [h0]
    congr 1
    unfold skeleton
    refine skelLevels_congr _ _ _ D (fun p hp => ext_mem _ hp) _ 0 _ (by rw [hD]; omega) (by simp)
  unfold outOf
  rw [hl]
  refine List.map_congr_left fun k hk => ?_
  have : k.1.length ≤ D := by
    obtain ⟨j, M, hj, hkM, _⟩ := mem_skelLeaves.1 hk
    obtain ⟨h1, _, h3, _⟩ := skeleton_ok (T (cnt v pts [] + n [])) (fun p => cnt v pts p + n p) (max 1 (cnt v pts [] + n []))
    have := h1.len j M hj k hkM
    have := (List.getElem?_eq_some_iff.1 hj).1
    rw [hD] at h3
    omega
  have hs : ext (noisyData σ pts (restrictDraws D (v, n, g))).2 k.1 = prefixSum v pts k.1 + σ • g k.1 := ext_mem _ this
  simp only [hs]

lemma treeOf_ok (σ radius : ℝ) (k : ℤ) (dim : ℕ) (depth : ℤ) (tree : Option TreeParam) (ht : ∀ t ∈ tree, TreeOk t) (z : ℤ) :
    TreeOk (treeOf σ radius k dim depth tree z) := by
  cases tree with
  | some t => exact ht t rfl
  | none =>
    unfold treeOf TreeOk
    simp only
    omega

lemma treeOf_depth (σ radius : ℝ) (k : ℤ) (dim : ℕ) (depth : ℤ) (tree : Option TreeParam) (ht : ∀ t ∈ tree, t.maxDepth = depth) (z : ℤ) :
    (treeOf σ radius k dim depth tree z).maxDepth = depth := by
  cases tree with
  | some t => exact ht t rfl
  | none => rfl

lemma privateCoreset_eq (σ a : ℝ) (k : ℤ) (radius : ℝ) (depth : ℤ) (tree : Option TreeParam) (hk : tree = none → k ≠ 0)
    (ht : ∀ t ∈ tree, TreeOk t) (hd : ∀ t ∈ tree, t.maxDepth = depth) (h0 : 0 ≤ depth) (pts : List (Point d)) (hp : pts ≠ [])
    (w : (ℕ → Point d) × (List Bool → ℤ) × (List Bool → Point d)) :
    privateCoreset ⟨σ, radius, .float a⟩ k pts radius depth tree ⟨w.1, w.2.1, w.2.2⟩ =
      .ok (outOf (treeOf σ radius k d depth tree) radius
        (noisyData σ (pts.map fun x => clipScale radius x • x) (restrictDraws depth.toNat w))) := by
  obtain ⟨v, n, g⟩ := w
  have hne : (PyNum.float a).val ≠ ⊤ := by simp [PyNum.val]
  set cl := pts.map fun x => clipScale radius x • x with hcl
  have hcount : (cnt v cl [] : ℤ) = pts.length := by
    unfold cnt
    rw [List.filter_eq_self.2 fun x _ => by simpa using inPrefix_nil v x, hcl, List.length_map]
  have hclip : clipByRadius radius pts = .ok cl := by
    unfold clipByRadius
    rw [if_neg (by simpa using hp)]
  rw [outOf_eq _ (fun z => by rw [treeOf_depth _ _ _ _ _ _ hd])]
  have key : ∀ (c : Option ℤ) (t : TreeParam), t = treeOf σ radius k d depth tree (cnt v cl [] + n []) → (∀ z ∈ c, z = cnt v cl [] + n []) →
      chooseTree ⟨σ, radius, .float a⟩ k pts.length d depth tree (n []) = .ok (t, c) →
      privateCoreset ⟨σ, radius, .float a⟩ k pts radius depth tree ⟨v, n, g⟩ = .ok ((skelLeaves (skeleton (treeOf σ radius k d depth tree
        (cnt v cl [] + n [])) (fun p => cnt v cl p + n p) (max 1 (cnt v cl [] + n [])))).map fun k =>
      (let y := (k.2 : ℝ)⁻¹ • (prefixSum v cl k.1 + σ • g k.1)
       (clipScale radius y • y, k.2))) := by
    intro c t htt hc hch
    unfold privateCoreset
    rw [hch, hclip]
    simp only []
    subst htt
    have hno : noisy (⟨⟨σ, radius, .float a⟩, treeOf σ radius k d depth tree (cnt v cl [] + n []), radius, v, n, g⟩ : Env d) cl =
        fun p => cnt v cl p + n p := by
      funext p
      unfold noisy getPrivateCount
      rw [if_neg hne]
      rfl
    rw [coreset_spec _ _ _ (treeOf_ok _ _ _ _ _ _ ht _) (by simp only [treeOf_depth _ _ _ _ _ _ hd]; exact h0)]
    have hr : rootCount (⟨⟨σ, radius, .float a⟩, treeOf σ radius k d depth tree (cnt v cl [] + n []), radius, v, n, g⟩ : Env d) cl c =
        max 1 (cnt v cl [] + n []) := by
      unfold rootCount
      rw [hno]
      cases c with
      | none => rfl
      | some z => rw [Option.getD_some, hc z rfl]
    rw [hno, hr]
  cases tree with
  | some t => exact key none t rfl (by simp) rfl
  | none =>
    refine key (some (cnt v cl [] + n [])) _ rfl (by simp) ?_
    have hk' : ¬ 2 * k = 0 := by have := hk rfl; omega
    unfold chooseTree defaultTreeParam getPrivateCount mkTreeParam
    simp only [if_neg hne, if_neg hk', hcount]
    rw [if_neg (by omega), if_neg (by omega)]
    rfl

/-! ### The law for fixed projection vectors -/

lemma map_pair {C S S' : Type*} [MeasurableSpace C] [Countable C] [MeasurableSingletonClass C] [MeasurableSpace S] [MeasurableSpace S']
    (μ : Measure C) (ν : Measure S) [IsProbabilityMeasure μ] [IsProbabilityMeasure ν] (h : C → S → S') (hm : ∀ c, Measurable (h c)) :
    (μ.prod ν).map (fun p => (p.1, h p.1 p.2)) = μ ⊗ₘ (Kernel.ofFunOfCountable fun c => ν.map (h c)) := by
  haveI : IsMarkovKernel (Kernel.ofFunOfCountable fun c => ν.map (h c)) :=
    ⟨fun c => Measure.isProbabilityMeasure_map (hm c).aemeasurable⟩
  have hmeas : Measurable fun p : C × S => (p.1, h p.1 p.2) := measurable_from_prod_countable_right fun c => measurable_const.prodMk (hm c)
  ext A hA
  rw [Measure.map_apply hmeas hA, Measure.prod_apply (hmeas hA), Measure.compProd_apply hA]
  refine lintegral_congr fun c => ?_
  show _ = (ν.map (h c)) _
  rw [Measure.map_apply (hm c) (measurable_prodMk_left hA)]
  rfl

/-- The sum of the points of a leaf; zero for other prefixes. -/
noncomputable def sumAt {D : ℕ} (T : ℤ → TreeParam) (v : ℕ → Point d) (pts : List (Point d)) (c : prefixes D → ℤ) (p : List Bool) : Point d :=
  if p ∈ (leavesOf T c).map Prod.fst then prefixSum v pts p else 0

lemma outOf_sumAt {D : ℕ} (T : ℤ → TreeParam) (R σ : ℝ) (v : ℕ → Point d) (pts : List (Point d)) (c : prefixes D → ℤ) (g : prefixes D → Point d) :
    outOf T R (c, fun p => prefixSum v pts p + σ • g p) = outOf T R (c, fun p => sumAt T v pts c p + σ • g p) := by
  unfold outOf
  refine List.map_congr_left fun k hk => ?_
  have : ext (fun p : prefixes D => prefixSum v pts p + σ • g p) k.1 = ext (fun p : prefixes D => sumAt T v pts c p + σ • g p) k.1 := by
    unfold ext
    split_ifs with h
    · simp only [sumAt]
      rw [if_pos (List.mem_map_of_mem hk)]
    · rfl
  simp only [this]

/-- The noisy sums, given the noisy counts. -/
noncomputable def sumKernel {D : ℕ} (T : ℤ → TreeParam) (σ : ℝ) (v : ℕ → Point d) (pts : List (Point d)) :
    Kernel (prefixes D → ℤ) (prefixes D → Point d) :=
  Kernel.ofFunOfCountable fun c => Measure.pi fun p : prefixes D => gaussianVec (sumAt T v pts c p) σ

instance gaussianVec_prob (a : Vec d) (σ : ℝ) : IsProbabilityMeasure (gaussianVec a σ) :=
  Measure.isProbabilityMeasure_map (by fun_prop)

instance {D : ℕ} (T : ℤ → TreeParam) (σ : ℝ) (v : ℕ → Point d) (pts : List (Point d)) : IsMarkovKernel (sumKernel (D := D) T σ v pts) :=
  ⟨fun c => by unfold sumKernel; show IsProbabilityMeasure (Measure.pi _); infer_instance⟩

/-- The noisy counts. -/
noncomputable def countLaw (D : ℕ) (a : ℝ) (v : ℕ → Point d) (pts : List (Point d)) : Measure (prefixes D → ℤ) :=
  Measure.pi fun p : prefixes D => (discreteLaplace a).map (cnt v pts p + ·)

lemma shift_prob {a : ℝ} (ha : 0 < a) (m : ℤ) : IsProbabilityMeasure ((discreteLaplace a).map (m + ·)) := by
  haveI := Verif.Mech.discreteLaplace_prob ha
  exact Measure.isProbabilityMeasure_map (measurable_of_countable _).aemeasurable

lemma law_eq {D : ℕ} (T : ℤ → TreeParam) (R σ : ℝ) {a : ℝ} (ha : 0 < a) (v : ℕ → Point d) (pts : List (Point d)) :
    ((Measure.pi fun _ : prefixes D => discreteLaplace a).prod (Measure.pi fun _ : prefixes D => stdGaussian (Point d))).map
        (fun w => outOf T R (noisyData σ pts (v, w))) = (countLaw D a v pts ⊗ₘ sumKernel T σ v pts).map (outOf T R) := by
  haveI := Verif.Mech.discreteLaplace_prob ha
  haveI := fun m => shift_prob ha m
  haveI : IsProbabilityMeasure (countLaw D a v pts) := by unfold countLaw; infer_instance
  have h1 : sumKernel T σ v pts = Kernel.ofFunOfCountable fun c : prefixes D → ℤ =>
      (Measure.pi fun _ : prefixes D => stdGaussian (Point d)).map fun g (p : prefixes D) => sumAt T v pts c p + σ • g p := by
    unfold sumKernel
    congr 1
    funext c
    refine (Measure.pi_map_pi (f := fun (p : prefixes D) z => sumAt T v pts c p + σ • z) fun p => ?_).symm
    fun_prop
  have h2 : countLaw D a v pts = (Measure.pi fun _ : prefixes D => discreteLaplace a).map fun n (p : prefixes D) => cnt v pts p + n p :=
    (Measure.pi_map_pi (f := fun (p : prefixes D) z => cnt v pts p + z) fun p => (measurable_of_countable _).aemeasurable).symm
  have hm1 : Measurable fun n : prefixes D → ℤ => fun p : prefixes D => cnt v pts p + n p := measurable_of_countable _
  have hm2 : Measurable fun p : (prefixes D → ℤ) × (prefixes D → Point d) => (p.1, fun q : prefixes D => sumAt T v pts p.1 q + σ • p.2 q) :=
    measurable_from_prod_countable_right fun c => measurable_const.prodMk (by fun_prop)
  have h3 : (countLaw D a v pts).prod (Measure.pi fun _ : prefixes D => stdGaussian (Point d)) =
      ((Measure.pi fun _ : prefixes D => discreteLaplace a).prod (Measure.pi fun _ : prefixes D => stdGaussian (Point d))).map
        (Prod.map (fun n (p : prefixes D) => cnt v pts p + n p) id) := by
    rw [← Measure.map_prod_map _ _ hm1 measurable_id, Measure.map_id, h2]
  rw [h1, ← map_pair _ _ (fun c (g : prefixes D → Point d) (p : prefixes D) => sumAt T v pts c p + σ • g p) (fun c => by fun_prop), Measure.map_map (measurable_outOf T R) hm2,
    h3, Measure.map_map ((measurable_outOf T R).comp hm2) (hm1.prodMap measurable_id)]
  congr 1
  funext w
  exact outOf_sumAt T R σ v pts _ w.2

lemma cnt_insert (v : ℕ → Point d) (l₁ l₂ : List (Point d)) (x : Point d) (p : List Bool) [Decidable (InPrefix v p x)] :
    cnt v (l₁ ++ x :: l₂) p = cnt v (l₁ ++ l₂) p + if InPrefix v p x then 1 else 0 := by
  unfold cnt
  by_cases h : InPrefix v p x <;> simp [List.filter_append, h] <;> ring

lemma prefixSum_insert (v : ℕ → Point d) (l₁ l₂ : List (Point d)) (x : Point d) (p : List Bool) [Decidable (InPrefix v p x)] :
    prefixSum v (l₁ ++ x :: l₂) p = prefixSum v (l₁ ++ l₂) p + if InPrefix v p x then x else 0 := by
  unfold prefixSum
  by_cases h : InPrefix v p x <;> simp [List.filter_append, h] <;> abel

/-- The prefixes of a point. -/
noncomputable def pathOf (D : ℕ) (v : ℕ → Point d) (x : Point d) : Finset (prefixes D) :=
  (Finset.range (D + 1)).attach.image fun i : Finset.range (D + 1) => ⟨hashOf v x i, mem_prefixes.2 (by
    rw [hashOf_length]; have := Finset.mem_range.1 i.2; omega)⟩

lemma mem_pathOf {D : ℕ} {v : ℕ → Point d} {x : Point d} {p : prefixes D} : p ∈ pathOf D v x ↔ InPrefix v p x := by
  unfold pathOf
  simp only [Finset.mem_image, Finset.mem_attach, true_and, Subtype.exists]
  constructor
  · rintro ⟨i, hi, h⟩
    rw [← h]
    unfold InPrefix
    simp [hashOf_length]
  · intro h
    have := mem_prefixes.1 p.2
    exact ⟨p.1.length, Finset.mem_range.2 (by omega), Subtype.ext h⟩

lemma card_pathOf {D : ℕ} {v : ℕ → Point d} {x : Point d} : (pathOf D v x).card = D + 1 := by
  unfold pathOf
  rw [Finset.card_image_of_injective, Finset.card_attach, Finset.card_range]
  intro i j h
  have := congrArg (fun p : prefixes D => p.1.length) h
  simp only [hashOf_length] at this
  exact Subtype.ext this

lemma counts_dominates {D : ℕ} {a : ℝ} (ha : 0 < a) (v : ℕ → Point d) (pts pts' : List (Point d)) (x : Point d) (Lc : LossLaw)
    (hc : ∀ p, InPrefix v p x → Lc.Dominates ((discreteLaplace a).map (cnt v pts p + ·)) ((discreteLaplace a).map (cnt v pts' p + ·)))
    (he : ∀ p, ¬ InPrefix v p x → cnt v pts p = cnt v pts' p) :
    (Lc.pow (D + 1)).Dominates (countLaw D a v pts) (countLaw D a v pts') := by
  haveI := fun m => shift_prob ha m
  rw [← card_pathOf (v := v) (x := x)]
  refine pi_dominates_on _ _ Lc (pathOf D v x) (fun p hp => hc p (mem_pathOf.1 hp)) fun p hp => ?_
  rw [he p fun h => hp (mem_pathOf.2 h)]

lemma leaf_on_path_unique {D : ℕ} (T : ℤ → TreeParam) (v : ℕ → Point d) (x : Point d) (c : prefixes D → ℤ) {p q : List Bool}
    (hp : p ∈ (leavesOf T c).map Prod.fst) (hq : q ∈ (leavesOf T c).map Prod.fst) (hpx : InPrefix v p x) (hqx : InPrefix v q x) : p = q := by
  obtain ⟨k, hk, rfl⟩ := List.mem_map.1 hp
  obtain ⟨k', hk', rfl⟩ := List.mem_map.1 hq
  obtain ⟨h1, _⟩ := skeleton_ok (T (ext c [])) (ext c) (max 1 (ext c []))
  rcases le_total k.1.length k'.1.length with h | h
  · have : k.1 = k'.1.take k.1.length := inPrefix_unique hpx (inPrefix_take hqx _) (by simpa using h)
    rw [leaf_unique h1 hk hk' (this ▸ List.take_prefix _ _)]
  · have : k'.1 = k.1.take k'.1.length := inPrefix_unique hqx (inPrefix_take hpx _) (by simpa using h)
    rw [leaf_unique h1 hk' hk (this ▸ List.take_prefix _ _)]

lemma sums_dominates {D : ℕ} (T : ℤ → TreeParam) (σ R : ℝ) (hR : 0 ≤ R) (v : ℕ → Point d) (pts pts' : List (Point d)) (x : Point d) (Ls : LossLaw)
    (hg : ∀ u u' : Vec d, ‖u - u'‖ ≤ R → Ls.Dominates (gaussianVec u σ) (gaussianVec u' σ))
    (hs : ∀ p, InPrefix v p x → ‖prefixSum v pts p - prefixSum v pts' p‖ ≤ R)
    (he : ∀ p, ¬ InPrefix v p x → prefixSum v pts p = prefixSum v pts' p) (c : prefixes D → ℤ) :
    Ls.Dominates (sumKernel T σ v pts c) (sumKernel T σ v pts' c) := by
  have hone : Ls.pow 1 = Ls := by
    show Ls.conv LossLaw.zero = Ls
    rw [conv_comm, zero_conv]
  obtain ⟨p0, hp0⟩ : ∃ p0 : prefixes D, ∀ p : prefixes D, p.1 ∈ (leavesOf T c).map Prod.fst → InPrefix v p x → p = p0 := by
    by_cases h : ∃ p : prefixes D, p.1 ∈ (leavesOf T c).map Prod.fst ∧ InPrefix v p x
    · obtain ⟨p, h1, h2⟩ := h
      exact ⟨p, fun q h3 h4 => Subtype.ext (leaf_on_path_unique T v x c h3 h1 h4 h2)⟩
    · exact ⟨⟨[], mem_prefixes.2 (by simp)⟩, fun q h3 h4 => absurd ⟨q, h3, h4⟩ h⟩
  have := pi_dominates_on (fun p : prefixes D => gaussianVec (sumAt T v pts c p) σ) (fun p : prefixes D => gaussianVec (sumAt T v pts' c p) σ)
    Ls {p0} (fun p _ => hg _ _ ?_) fun p hp => ?_
  · rwa [Finset.card_singleton, hone] at this
  · unfold sumAt
    split_ifs with h
    · by_cases hx : InPrefix v p x
      · exact hs _ hx
      · rw [he _ hx]; simpa using hR
    · simpa using hR
  · have : sumAt T v pts c p = sumAt T v pts' c p := by
      unfold sumAt
      split_ifs with h
      · by_cases hx : InPrefix v p x
        · exact absurd (Finset.mem_singleton.2 (hp0 p h hx)) hp
        · exact he _ hx
      · rfl
    rw [this]

lemma fixed_dominates {D : ℕ} (T : ℤ → TreeParam) (σ R : ℝ) (hR : 0 ≤ R) {a : ℝ} (ha : 0 < a) (v : ℕ → Point d) (pts pts' : List (Point d))
    (x : Point d) (Lc Ls : LossLaw)
    (hc : ∀ p, InPrefix v p x → Lc.Dominates ((discreteLaplace a).map (cnt v pts p + ·)) ((discreteLaplace a).map (cnt v pts' p + ·)))
    (hce : ∀ p, ¬ InPrefix v p x → cnt v pts p = cnt v pts' p)
    (hg : ∀ u u' : Vec d, ‖u - u'‖ ≤ R → Ls.Dominates (gaussianVec u σ) (gaussianVec u' σ))
    (hs : ∀ p, InPrefix v p x → ‖prefixSum v pts p - prefixSum v pts' p‖ ≤ R)
    (he : ∀ p, ¬ InPrefix v p x → prefixSum v pts p = prefixSum v pts' p) :
    ((Lc.pow (D + 1)).conv Ls).Dominates
      ((countLaw D a v pts ⊗ₘ sumKernel T σ v pts).map (outOf T R)) ((countLaw D a v pts' ⊗ₘ sumKernel T σ v pts').map (outOf T R)) := by
  haveI := fun m => shift_prob ha m
  haveI : ∀ l, IsProbabilityMeasure (countLaw D a v l) := fun l => by unfold countLaw; infer_instance
  exact ((counts_dominates ha v pts pts' x Lc hc hce).adaptive (sums_dominates T σ R hR v pts pts' x Ls hg hs he)).map (measurable_outOf T R)

/-! ### The mixture over the projection vectors -/

lemma mixture_dominates {V N O : Type*} [MeasurableSpace V] [MeasurableSpace N] [MeasurableSpace O] (ν : Measure V) (μ : Measure N)
    [IsProbabilityMeasure ν] [IsProbabilityMeasure μ] {F G : V × N → O} (hF : Measurable F) (hG : Measurable G) (L : LossLaw)
    (h : ∀ v, L.Dominates (μ.map fun n => F (v, n)) (μ.map fun n => G (v, n))) : L.Dominates ((ν.prod μ).map F) ((ν.prod μ).map G) := by
  have main : ∀ {F : V × N → O} (hF : Measurable F), ∃ K : Kernel V O, IsMarkovKernel K ∧ (∀ v, K v = μ.map fun n => F (v, n)) ∧
      (ν.prod μ).map F = (ν ⊗ₘ K).map Prod.snd := by
    intro F hF
    refine ⟨(Kernel.id ×ₖ Kernel.const V μ).map F, Kernel.IsMarkovKernel.map _ hF, fun v => ?_, ?_⟩
    · rw [Kernel.map_apply _ hF, Kernel.prod_apply, Kernel.id_apply, Kernel.const_apply, Measure.dirac_prod,
        Measure.map_map hF (by fun_prop)]
      rfl
    · rw [← Measure.snd, Measure.snd_compProd, ← Measure.map_comp _ _ hF, ← Measure.compProd_eq_comp_prod, Measure.compProd_const]
  obtain ⟨K, _, hK, hKF⟩ := main hF
  obtain ⟨K', _, hK', hKG⟩ := main hG
  rw [hKF, hKG, ← zero_conv L]
  exact ((zero_dominates ν).adaptive fun v => by rw [hK, hK']; exact h v).map measurable_snd

end Verif.Clustering
