import Verif.Spec.History
import Mathlib.Data.List.Chain
import Mathlib.Data.List.Induction

/-! Helper lemmas about python equality, expansion and the builder. -/

namespace Verif

mutual
theorem PyEq.refl : ∀ e : DpEvent, PyEq e e
  | .noOp => .noOp
  | .nonPrivate => .nonPrivate
  | .unsupported => .unsupported
  | .randomizedResponse _ _ => .randomizedResponse rfl
  | .gaussian _ => .gaussian rfl
  | .laplace _ => .laplace rfl
  | .selfComposed e _ => .selfComposed (PyEq.refl e)
  | .composed es => .composed (PyEqList.refl es)
  | .poissonSampled _ e => .poissonSampled rfl (PyEq.refl e)
  | .sampledWithReplacement _ _ e => .sampledWithReplacement (PyEq.refl e)
  | .sampledWithoutReplacement _ _ e => .sampledWithoutReplacement (PyEq.refl e)
  | .singleEpochTreeAggregation _ _ => .singleEpochTreeAggregation rfl
  | .repeatAndSelect e _ _ => .repeatAndSelect (PyEq.refl e) rfl rfl
  | .mixtureOfGaussians _ _ _ => .mixtureOfGaussians rfl rfl rfl
theorem PyEqList.refl : ∀ es : List DpEvent, PyEqList es es
  | [] => .nil
  | e :: es => .cons (PyEq.refl e) (PyEqList.refl es)
end

mutual
theorem PyEq.symm : ∀ {e f : DpEvent}, PyEq e f → PyEq f e
  | _, _, .noOp => .noOp
  | _, _, .nonPrivate => .nonPrivate
  | _, _, .unsupported => .unsupported
  | _, _, .randomizedResponse h => .randomizedResponse h.symm
  | _, _, .gaussian h => .gaussian h.symm
  | _, _, .laplace h => .laplace h.symm
  | _, _, .selfComposed h => .selfComposed h.symm
  | _, _, .composed h => .composed h.symm
  | _, _, .poissonSampled h h' => .poissonSampled h.symm h'.symm
  | _, _, .sampledWithReplacement h => .sampledWithReplacement h.symm
  | _, _, .sampledWithoutReplacement h => .sampledWithoutReplacement h.symm
  | _, _, .singleEpochTreeAggregation h => .singleEpochTreeAggregation h.symm
  | _, _, .repeatAndSelect h h1 h2 => .repeatAndSelect h.symm h1.symm h2.symm
  | _, _, .mixtureOfGaussians h h1 h2 => .mixtureOfGaussians h.symm h1.symm h2.symm
theorem PyEqList.symm : ∀ {e f : List DpEvent}, PyEqList e f → PyEqList f e
  | _, _, .nil => .nil
  | _, _, .cons h h' => .cons h.symm h'.symm
end

mutual
theorem PyEq.trans : ∀ {e f g : DpEvent}, PyEq e f → PyEq f g → PyEq e g
  | _, _, _, .noOp, .noOp => .noOp
  | _, _, _, .nonPrivate, .nonPrivate => .nonPrivate
  | _, _, _, .unsupported, .unsupported => .unsupported
  | _, _, _, .randomizedResponse h, .randomizedResponse h' => .randomizedResponse (h.trans h')
  | _, _, _, .gaussian h, .gaussian h' => .gaussian (h.trans h')
  | _, _, _, .laplace h, .laplace h' => .laplace (h.trans h')
  | _, _, _, .selfComposed h, .selfComposed h' => .selfComposed (h.trans h')
  | _, _, _, .composed h, .composed h' => .composed (h.trans h')
  | _, _, _, .poissonSampled h k, .poissonSampled h' k' => .poissonSampled (h.trans h') (k.trans k')
  | _, _, _, .sampledWithReplacement h, .sampledWithReplacement h' =>
      .sampledWithReplacement (h.trans h')
  | _, _, _, .sampledWithoutReplacement h, .sampledWithoutReplacement h' =>
      .sampledWithoutReplacement (h.trans h')
  | _, _, _, .singleEpochTreeAggregation h, .singleEpochTreeAggregation h' =>
      .singleEpochTreeAggregation (h.trans h')
  | _, _, _, .repeatAndSelect h h1 h2, .repeatAndSelect k k1 k2 =>
      .repeatAndSelect (h.trans k) (h1.trans k1) (h2.trans k2)
  | _, _, _, .mixtureOfGaussians h h1 h2, .mixtureOfGaussians k k1 k2 =>
      .mixtureOfGaussians (h.trans k) (h1.trans k1) (h2.trans k2)
theorem PyEqList.trans : ∀ {e f g : List DpEvent}, PyEqList e f → PyEqList f g → PyEqList e g
  | _, _, _, .nil, .nil => .nil
  | _, _, _, .cons h h', .cons k k' => .cons (h.trans k) (h'.trans k')
end

theorem PyEqList.append : ∀ {a b c d : List DpEvent}, PyEqList a b → PyEqList c d →
    PyEqList (a ++ c) (b ++ d)
  | _, _, _, _, .nil, h => h
  | _, _, _, _, .cons h h', k => .cons h (PyEqList.append h' k)

namespace Spec

theorem repeatList_one {α : Type*} (l : List α) : repeatList 1 l = l := by
  simp [repeatList]

theorem repeatList_add {α : Type*} {m n : ℤ} (hm : 0 ≤ m) (hn : 0 ≤ n) (l : List α) :
    repeatList (m + n) l = repeatList m l ++ repeatList n l := by
  simp only [repeatList, Int.toNat_add hm hn, List.replicate_add, List.flatten_append]

theorem flatten_replicate_append {α : Type*} (k : ℕ) (l : List α) :
    (List.replicate k l).flatten ++ l = l ++ (List.replicate k l).flatten := by
  induction k with
  | zero => simp
  | succ k ih => simp [List.replicate_succ, ih]

theorem flatten_replicate_mul {α : Type*} (k m : ℕ) (l : List α) :
    (List.replicate k (List.replicate m l).flatten).flatten = (List.replicate (k * m) l).flatten := by
  induction k with
  | zero => simp
  | succ k ih =>
    rw [List.replicate_succ, List.flatten_cons, ih, Nat.succ_mul, Nat.add_comm (k * m) m,
      List.replicate_add, List.flatten_append]

theorem repeatList_mul {α : Type*} {m n : ℤ} (hm : 0 ≤ m) (hn : 0 ≤ n) (l : List α) :
    repeatList (m * n) l = repeatList m (repeatList n l) := by
  simp only [repeatList]
  rw [flatten_replicate_mul, Int.toNat_mul hm hn]

theorem repeatList_nil {α : Type*} (n : ℤ) : repeatList n ([] : List α) = [] := by
  simp [repeatList]

theorem PyEqList_flatten_replicate {l l' : List DpEvent} (h : PyEqList l l') (k : ℕ) :
    PyEqList (List.replicate k l).flatten (List.replicate k l').flatten := by
  induction k with
  | zero => exact .nil
  | succ k ih => simpa [List.replicate_succ] using h.append ih

theorem PyEqList_repeatList {l l' : List DpEvent} (h : PyEqList l l') (n : ℤ) :
    PyEqList (repeatList n l) (repeatList n l') := PyEqList_flatten_replicate h _

mutual
theorem expand_congr : ∀ {e f : DpEvent}, PyEq e f → PyEqList (expand e) (expand f)
  | _, _, .noOp => .nil
  | _, _, .nonPrivate => .cons .nonPrivate .nil
  | _, _, .unsupported => .cons .unsupported .nil
  | _, _, .randomizedResponse h => .cons (.randomizedResponse h) .nil
  | _, _, .gaussian h => .cons (.gaussian h) .nil
  | _, _, .laplace h => .cons (.laplace h) .nil
  | _, _, .selfComposed h => by
      rw [expand, expand]; exact PyEqList_repeatList (expand_congr h) _
  | _, _, .composed h => by rw [expand, expand]; exact expandList_congr h
  | _, _, .poissonSampled h h' => .cons (.poissonSampled h h') .nil
  | _, _, .sampledWithReplacement h => .cons (.sampledWithReplacement h) .nil
  | _, _, .sampledWithoutReplacement h => .cons (.sampledWithoutReplacement h) .nil
  | _, _, .singleEpochTreeAggregation h => .cons (.singleEpochTreeAggregation h) .nil
  | _, _, .repeatAndSelect h h1 h2 => .cons (.repeatAndSelect h h1 h2) .nil
  | _, _, .mixtureOfGaussians h h1 h2 => .cons (.mixtureOfGaussians h h1 h2) .nil
theorem expandList_congr : ∀ {e f : List DpEvent}, PyEqList e f →
    PyEqList (expandList e) (expandList f)
  | _, _, .nil => .nil
  | _, _, .cons h h' => by
      rw [expandList, expandList]; exact (expand_congr h).append (expandList_congr h')
end

theorem expandList_eq_flatMap (es : List DpEvent) : expandList es = es.flatMap expand := by
  induction es with
  | nil => simp [expandList]
  | cons e es ih => simp [expandList, ih]

/-- Expansion of the builder's entries. -/
def expandCounts (l : List (DpEvent × ℤ)) : List DpEvent :=
  l.flatMap fun p => repeatList p.2 (expand p.1)

theorem expand_entryEvent (p : DpEvent × ℤ) :
    expand (Builder.entryEvent p) = repeatList p.2 (expand p.1) := by
  obtain ⟨e, n⟩ := p
  by_cases h : n = 1
  · subst h; simp [Builder.entryEvent, repeatList_one]
  · simp [Builder.entryEvent, h, expand]

theorem expand_assemble (l : List (DpEvent × ℤ)) :
    expand (Builder.assemble l) = expandCounts l := by
  have key : (l.map Builder.entryEvent).flatMap expand = expandCounts l := by
    simp [expandCounts, List.flatMap_map, expand_entryEvent]
  rw [← key, Builder.assemble]
  split
  · rename_i h; simp [h, expand]
  · rename_i h; simp [h]
  · rename_i h; simp [expand, expandList_eq_flatMap]

theorem expandCounts_push (l : List (DpEvent × ℤ)) (e : DpEvent) (n : ℤ)
    (hl : ∀ p ∈ l, 1 ≤ p.2) (hn : 1 ≤ n) :
    PyEqList (expandCounts (Builder.push l e n)) (expandCounts l ++ repeatList n (expand e)) := by
  unfold Builder.push
  rcases List.eq_nil_or_concat l with rfl | ⟨l', ⟨e', m⟩, rfl⟩
  · simpa [expandCounts] using PyEqList.refl _
  · simp only [List.concat_eq_append, List.getLast?_append, List.getLast?_singleton, Option.some_or,
      List.dropLast_concat]
    split
    · rename_i h
      have hm : 1 ≤ m := hl (e', m) (by simp)
      simp only [expandCounts, List.flatMap_append, List.flatMap_cons, List.flatMap_nil,
        List.append_nil, List.append_assoc]
      refine (PyEqList.refl _).append ?_
      rw [repeatList_add (by omega) (by omega)]
      exact (PyEqList_repeatList (expand_congr h.symm) _).append (PyEqList.refl _)
    · simpa [expandCounts] using PyEqList.refl _

end Spec

namespace Builder
open Spec

/-- The representation invariant of a builder. -/
structure Inv (b : Builder) : Prop where
  counts : ∀ p ∈ b.eventCounts, 1 ≤ p.2
  noNoOp : ∀ p ∈ b.eventCounts, p.1 ≠ .noOp
  noSelf : ∀ p ∈ b.eventCounts, ∀ e n, p.1 ≠ .selfComposed e n
  distinct : b.eventCounts.IsChain fun p q => ¬ PyEq p.1 q.1
  cache : ∀ e, b.composedEvent = some e → e = assemble b.eventCounts

theorem inv_init : init.Inv := by
  constructor <;> simp [init]

theorem mem_push {l : List (DpEvent × ℤ)} {e : DpEvent} {n : ℤ} {p : DpEvent × ℤ}
    (h : p ∈ push l e n) : p ∈ l ∨ (p.1 = e ∧ ∃ m, p.2 = m + n ∧ (m = 0 ∨ ∃ q ∈ l, q.2 = m)) := by
  unfold push at h
  rcases List.eq_nil_or_concat l with rfl | ⟨l', ⟨e', m⟩, rfl⟩
  · simp at h; subst h; right; exact ⟨rfl, 0, by simp⟩
  · simp only [List.concat_eq_append, List.getLast?_append, List.getLast?_singleton, Option.some_or,
      List.dropLast_concat] at h
    split at h
    · simp only [List.mem_append, List.mem_singleton] at h
      rcases h with h | h
      · left; simp [h]
      · right; subst h; refine ⟨rfl, m, rfl, Or.inr ⟨(e', m), by simp, rfl⟩⟩
    · simp only [List.mem_append, List.mem_singleton] at h
      rcases h with h | h
      · left; simpa using h
      · right; subst h; exact ⟨rfl, 0, by simp⟩

theorem push_chain {l : List (DpEvent × ℤ)} (e : DpEvent) (n : ℤ)
    (h : l.IsChain fun p q => ¬ PyEq p.1 q.1) :
    (push l e n).IsChain fun p q => ¬ PyEq p.1 q.1 := by
  unfold push
  rcases List.eq_nil_or_concat l with rfl | ⟨l', ⟨e', m⟩, rfl⟩
  · simp
  · simp only [List.concat_eq_append, List.getLast?_append, List.getLast?_singleton, Option.some_or,
      List.dropLast_concat]
    rw [List.concat_eq_append, List.isChain_append] at h
    split
    · rename_i hh
      rw [List.isChain_append]
      refine ⟨h.1, by simp, ?_⟩
      intro x hx y hy
      simp at hy; subst hy
      have := h.2.2 x hx (e', m) (by simp)
      intro hc; exact this (hc.trans hh.symm)
    · rename_i hh
      rw [List.isChain_append]
      refine ⟨?_, by simp, ?_⟩
      · rw [List.isChain_append]; exact h
      · intro x hx y hy
        simp at hx hy; subst hx; subst hy; exact hh

theorem inv_push {b : Builder} (hb : b.Inv) {e : DpEvent} {n : ℤ} (hn : 1 ≤ n)
    (h1 : e ≠ .noOp) (h2 : ∀ f m, e ≠ .selfComposed f m) :
    Inv { eventCounts := push b.eventCounts e n, composedEvent := none } where
  counts p hp := by
    rcases mem_push hp with h | ⟨_, m, h, h'⟩
    · exact hb.counts p h
    · rcases h' with rfl | ⟨q, hq, rfl⟩
      · omega
      · have := hb.counts q hq; omega
  noNoOp p hp := by
    rcases mem_push hp with h | ⟨h, -⟩
    · exact hb.noNoOp p h
    · rw [h]; exact h1
  noSelf p hp := by
    rcases mem_push hp with h | ⟨h, -⟩
    · exact hb.noSelf p h
    · rw [h]; exact h2
  distinct := push_chain e n hb.distinct
  cache := by simp

open Classical in
theorem composeEvent_spec (b : Builder) (hb : b.Inv) : ∀ (e : DpEvent) (n : ℤ),
    (b.composeEvent e n).1.Inv ∧
    PyEqList (expandCounts (b.composeEvent e n).1.eventCounts)
      (expandCounts b.eventCounts ++ callMeaning (.compose (.event e) (.int n))) ∧
    ((b.composeEvent e n).2 = .ok () ↔ 1 ≤ n ∧ topCountsPos e) ∧
    (∀ err, (b.composeEvent e n).2 = .error err → (b.composeEvent e n).1 = b ∧ err = .valueError) := by
  intro e
  induction e using DpEvent.rec (motive_2 := fun _ => True) with
  | nil => trivial
  | cons _ _ _ _ => trivial
  | noOp =>
    intro n
    by_cases h : n < 1
    · have : ¬ 1 ≤ n := by omega
      simp [composeEvent, h, hb, callMeaning, this, PyEqList.refl]
    · have : 1 ≤ n := by omega
      simp [composeEvent, h, hb, callMeaning, this, topCountsPos, expand, repeatList_nil,
        PyEqList.refl]
  | selfComposed e c ih =>
    intro n
    by_cases h : n < 1
    · have : ¬ 1 ≤ n := by omega
      simp [composeEvent, h, hb, callMeaning, this, PyEqList.refl]
    · have h1 : 1 ≤ n := by omega
      obtain ⟨i1, i2, i3, i4⟩ := ih (n * c)
      have hiff : (1 ≤ n * c ∧ topCountsPos e) ↔ (1 ≤ n ∧ topCountsPos (.selfComposed e c)) := by
        simp only [topCountsPos, h1, true_and]
        constructor
        · rintro ⟨a, b⟩; exact ⟨by nlinarith, b⟩
        · rintro ⟨a, b⟩; exact ⟨by nlinarith, b⟩
      have hm : callMeaning (.compose (.event e) (.int (n * c))) =
          callMeaning (.compose (.event (.selfComposed e c)) (.int n)) := by
        simp only [callMeaning, hiff]
        split
        · rename_i hh
          rw [expand, repeatList_mul (by omega) (by have := hh.2.1; omega)]
        · rfl
      simp only [composeEvent, h, if_false]
      rw [← hm, ← hiff]
      exact ⟨i1, i2, i3, i4⟩
  | _ =>
    intro n
    by_cases h : n < 1
    · have : ¬ 1 ≤ n := by omega
      simp [composeEvent, h, hb, callMeaning, this, PyEqList.refl]
    · have h1 : 1 ≤ n := by omega
      simp only [composeEvent, h, if_false, callMeaning, h1, topCountsPos, and_self, if_true]
      refine ⟨inv_push hb h1 (by simp) (by simp), expandCounts_push _ _ _ hb.counts h1, by simp, by simp⟩

theorem compose_spec (b : Builder) (hb : b.Inv) (e : EventArg) (n : CountArg) :
    (b.compose e n).1.Inv ∧
    PyEqList (expandCounts (b.compose e n).1.eventCounts)
      (expandCounts b.eventCounts ++ callMeaning (.compose e n)) ∧
    (∀ err, (b.compose e n).2 = .error err → (b.compose e n).1 = b) := by
  cases e with
  | notAnEvent => simp [compose, hb, callMeaning, PyEqList.refl]
  | event e =>
    cases n with
    | notAnInt => simp [compose, hb, callMeaning, PyEqList.refl]
    | int n =>
      obtain ⟨h1, h2, -, h4⟩ := composeEvent_spec b hb e n
      exact ⟨h1, h2, fun err h => (h4 err h).1⟩

theorem build_spec (b : Builder) (hb : b.Inv) :
    b.build.1.Inv ∧ b.build.1.eventCounts = b.eventCounts ∧ b.build.2 = assemble b.eventCounts := by
  unfold build
  split
  · rename_i e he; exact ⟨hb, rfl, hb.cache _ he⟩
  · exact ⟨⟨hb.counts, hb.noNoOp, hb.noSelf, hb.distinct, by simp⟩, rfl, rfl⟩

theorem run_spec (cs : List Call) :
    (run cs).Inv ∧ PyEqList (expandCounts (run cs).eventCounts) (historyMeaning cs) := by
  induction cs using List.reverseRecOn with
  | nil => exact ⟨inv_init, .nil⟩
  | append_singleton cs c ih =>
    obtain ⟨i1, i2⟩ := ih
    rw [run, List.foldl_append, ← run, historyMeaning, List.flatMap_append, ← historyMeaning]
    simp only [List.foldl_cons, List.foldl_nil, List.flatMap_cons, List.flatMap_nil, List.append_nil]
    cases c with
    | compose e n =>
      obtain ⟨h1, h2, -⟩ := compose_spec _ i1 e n
      exact ⟨h1, h2.trans (i2.append (PyEqList.refl _))⟩
    | build =>
      obtain ⟨h1, h2, -⟩ := build_spec _ i1
      refine ⟨h1, ?_⟩
      simpa [step, h2, callMeaning] using i2

end Builder
end Verif
