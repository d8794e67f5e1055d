import Verif.Proofs.Builder
import Verif.Proofs.NamedTuple

/-!
# C01, C02, C03: event builder and serialisation
-/

namespace Verif.Props
open Verif Verif.Spec

/-- **C01.** Whatever calls were made on a `DpEventBuilder`, the event returned by `build()` stands for exactly the
elementary applications of the accepted calls, in call order. -/
theorem C01_build_denotes_history (cs : List Builder.Call) :
    SameEvents (expand (Builder.run cs).build.2) (historyMeaning cs) := by
  obtain ⟨hi, hm⟩ := Builder.run_spec cs
  obtain ⟨-, -, h⟩ := Builder.build_spec _ hi
  rw [h, expand_assemble]
  exact hm

/-- A history mixing merges, nesting, `NoOp`, rejected calls and intermediate `build`s denotes three Gaussians and a
Laplace (so the statement is not about empty lists). -/
example : historyMeaning
    [.compose (.event (.gaussian (.float 1))) (.int 2), .build, .compose .notAnEvent (.int 1),
     .compose (.event (.gaussian (.int 1))) (.int 0),
     .compose (.event (.selfComposed (.gaussian (.int 1)) 1)) (.int 1),
     .compose (.event (.composed [.noOp, .laplace (.int 2)])) (.int 1)]
    = [.gaussian (.float 1), .gaussian (.float 1), .gaussian (.int 1), .laplace (.int 2)] := by
  simp [historyMeaning, callMeaning, expand, expandList, repeatList, topCountsPos]

/-- An entry of a built event: not `NoOp`, and if `SelfComposed` then with count at least two around an event that is
neither `NoOp` nor `SelfComposed`. -/
def IsEntry : DpEvent → Prop
  | .noOp => False
  | .selfComposed .noOp _ => False
  | .selfComposed (.selfComposed _ _) _ => False
  | .selfComposed _ n => 2 ≤ n
  | _ => True

/-- The repeated event of an entry. -/
def entryBase : DpEvent → DpEvent
  | .selfComposed e _ => e
  | e => e

theorem isEntry_entryEvent {p : DpEvent × ℤ} (h1 : 1 ≤ p.2) (h2 : p.1 ≠ .noOp)
    (h3 : ∀ e n, p.1 ≠ .selfComposed e n) :
    IsEntry (Builder.entryEvent p) ∧ entryBase (Builder.entryEvent p) = p.1 := by
  obtain ⟨e, n⟩ := p
  simp only [Builder.entryEvent]
  split
  · cases e <;> simp_all [IsEntry, entryBase]
  · have : 2 ≤ n := by simp only at h1; omega
    cases e <;> simp_all [IsEntry, entryBase]

/-- **C02 (normal form).** `build()` returns `NoOp`, a single entry, or a `Composed` event with at least two
entries, no two neighbouring ones repeating the same event. -/
theorem C02_build_normal_form (cs : List Builder.Call) :
    (Builder.run cs).build.2 = .noOp ∨ IsEntry (Builder.run cs).build.2 ∨
    ∃ es, (Builder.run cs).build.2 = .composed es ∧ 2 ≤ es.length ∧ (∀ e ∈ es, IsEntry e) ∧
      es.IsChain fun a b => ¬ PyEq (entryBase a) (entryBase b) := by
  obtain ⟨hi, -⟩ := Builder.run_spec cs
  obtain ⟨-, -, h⟩ := Builder.build_spec _ hi
  rw [h]
  have key : ∀ p ∈ (Builder.run cs).eventCounts,
      IsEntry (Builder.entryEvent p) ∧ entryBase (Builder.entryEvent p) = p.1 := fun p hp =>
    isEntry_entryEvent (hi.counts p hp) (hi.noNoOp p hp) (hi.noSelf p hp)
  generalize hl : (Builder.run cs).eventCounts = l at *
  unfold Builder.assemble
  match l, key, hi with
  | [], _, _ => simp
  | [p], key, _ => right; left; simpa using (key p (by simp)).1
  | p :: q :: l', key, hi =>
    right; right
    refine ⟨_, rfl, by simp, ?_, ?_⟩
    · intro e he
      obtain ⟨a, ha, rfl⟩ := List.mem_map.1 (show e ∈ List.map Builder.entryEvent (p :: q :: l') from he)
      exact (key a ha).1
    · have hd := hi.distinct
      rw [hl] at hd
      change (List.map Builder.entryEvent (p :: q :: l')).IsChain _
      rw [List.isChain_map]
      refine List.IsChain.imp_of_mem_imp (fun a b ha hb hab => ?_) hd
      rw [(key a ha).2, (key b hb).2]
      exact hab

/-- The `Composed` case is reached by a two-call history. -/
example : ∃ es, (Builder.run [.compose (.event (.gaussian (.int 1))) (.int 3),
    .compose (.event (.laplace (.int 1))) (.int 1)]).build.2 = .composed es := by
  have : ¬ PyEq (.gaussian (.int 1)) (.laplace (.int 1)) := by intro h; cases h
  simp [Builder.run, Builder.step, Builder.compose, Builder.composeEvent, Builder.push, Builder.init,
    Builder.build, Builder.assemble, this]

/-- **C02 (idempotent build).** Calling `build()` again returns the same event. -/
theorem C02_build_idempotent (cs : List Builder.Call) :
    (Builder.run (cs ++ [.build])).build.2 = (Builder.run cs).build.2 := by
  obtain ⟨hi, -⟩ := Builder.run_spec cs
  obtain ⟨h1, h2, h3⟩ := Builder.build_spec _ hi
  have : Builder.run (cs ++ [.build]) = (Builder.run cs).build.1 := by
    simp [Builder.run, Builder.step]
  rw [this, (Builder.build_spec _ h1).2.2, h2, h3]

/-- **C02 (atomic rejection).** A `compose` call that raises leaves the builder exactly as it was; it raises iff the
arguments are not an event and a positive int, or a `SelfComposed` chain holds a non-positive count. -/
theorem C02_rejection_atomic (cs : List Builder.Call) (e : EventArg) (n : CountArg) (err : Err)
    (h : ((Builder.run cs).compose e n).2 = .error err) :
    ((Builder.run cs).compose e n).1 = Builder.run cs :=
  (Builder.compose_spec _ (Builder.run_spec cs).1 e n).2.2 err h

/-- **C02 (exact acceptance).** -/
theorem C02_accepts_iff (cs : List Builder.Call) (e : EventArg) (n : CountArg) :
    ((Builder.run cs).compose e n).2 = .ok () ↔
      ∃ ev k, e = .event ev ∧ n = .int k ∧ 1 ≤ k ∧ topCountsPos ev := by
  cases e with
  | notAnEvent => simp [Builder.compose]
  | event ev =>
    cases n with
    | notAnInt => simp [Builder.compose]
    | int k =>
      simpa [Builder.compose] using
        (Builder.composeEvent_spec _ (Builder.run_spec cs).1 ev k).2.2.1

example : ((Builder.run []).compose (.event (.selfComposed (.gaussian (.int 1)) (-1))) (.int 2)).2
    = .error .valueError := by
  simp [Builder.run, Builder.compose, Builder.composeEvent]

/-- Was the call an accepted `compose`? -/
def accepted : Builder.Call → Prop
  | .compose (.event e) (.int n) => 1 ≤ n ∧ topCountsPos e
  | _ => False

theorem run_eventCounts_filter (p : Builder.Call → Bool) (hp : ∀ c, p c = true ↔ accepted c)
    (cs : List Builder.Call) :
    (Builder.run cs).eventCounts = (Builder.run (cs.filter p)).eventCounts := by
  induction cs using List.reverseRecOn with
  | nil => rfl
  | append_singleton cs c ih =>
    have hrun : ∀ l : List Builder.Call, ∀ c, Builder.run (l ++ [c]) = Builder.step (Builder.run l) c := by
      intro l c; simp [Builder.run]
    rw [hrun, List.filter_append]
    by_cases hc : accepted c
    · have : List.filter p [c] = [c] := by simp [(hp c).2 hc]
      rw [this, hrun]
      match c, hc with
      | .compose (.event e) (.int n), hc =>
        simp only [Builder.step, Builder.compose]
        obtain ⟨h1, h2⟩ := hc
        have key : ∀ (e : DpEvent) (n : ℤ) (b b' : Builder), b.eventCounts = b'.eventCounts →
            (b.composeEvent e n).1.eventCounts = (b'.composeEvent e n).1.eventCounts := by
          intro e
          induction e using DpEvent.rec (motive_2 := fun _ => True) with
          | nil => trivial
          | cons _ _ _ _ => trivial
          | noOp => intro n b b' h; simp only [Builder.composeEvent]; split <;> exact h
          | selfComposed e c ihe =>
            intro n b b' h; simp only [Builder.composeEvent]; split
            · exact h
            · exact ihe _ _ _ h
          | _ => intro n b b' h; simp only [Builder.composeEvent]; split <;> simp [h]
        exact key _ _ _ _ ih
    · have : List.filter p [c] = [] := by
        have : p c = false := by
          by_contra hcc; exact hc ((hp c).1 (by simpa using hcc))
        simp [this]
      rw [this, List.append_nil, ← ih]
      obtain ⟨hi, -⟩ := Builder.run_spec cs
      match c, hc with
      | .build, _ => exact (Builder.build_spec _ hi).2.1
      | .compose .notAnEvent _, _ => rfl
      | .compose (.event _) .notAnInt, _ => rfl
      | .compose (.event e) (.int n), hc =>
        simp only [Builder.step, Builder.compose]
        obtain ⟨-, -, h3, h4⟩ := Builder.composeEvent_spec _ hi e n
        cases hr : ((Builder.run cs).composeEvent e n).2 with
        | ok u => exact absurd (h3.1 (by rw [hr])) hc
        | error err => rw [(h4 err hr).1]

open Classical in
/-- **C02 (cache coherence).** After any interleaving of calls (accepted, rejected, `build`), `build()` returns the
event a fresh builder returns when fed only the accepted `compose` calls. -/
theorem C02_build_eq_fresh (cs : List Builder.Call) :
    (Builder.run cs).build.2 = (Builder.run (cs.filter fun c => decide (accepted c))).build.2 := by
  rw [(Builder.build_spec _ (Builder.run_spec cs).1).2.2,
    (Builder.build_spec _ (Builder.run_spec _).1).2.2, 
    run_eventCounts_filter _ (fun c => decide_eq_true_iff)]

open Classical in
example : [Builder.Call.build, .compose .notAnEvent (.int 1), .compose (.event .nonPrivate) (.int 1)].filter
    (fun c => decide (accepted c)) = [.compose (.event .nonPrivate) (.int 1)] := by
  have h1 : ¬ accepted .build := by simp [accepted]
  have h2 : ¬ accepted (.compose .notAnEvent (.int 1)) := by simp [accepted]
  have h3 : accepted (.compose (.event .nonPrivate) (.int 1)) := by simp [accepted, topCountsPos]
  rw [List.filter_cons_of_neg (by simpa using h1), List.filter_cons_of_neg (by simpa using h2),
    List.filter_cons_of_pos (by simpa using h3), List.filter_nil]

/-- **C03.** `DpEvent.from_named_tuple(event.to_named_tuple())` is the original object, for every event. -/
theorem C03_named_tuple_round_trip (e : DpEvent) : PyVal.fromNT (PyVal.toNT e.toPy) = e.toPy :=
  PyVal.from_to _ e.noNT_toPy

/-- **C03.** The named tuple contains no event object at any depth (nested events and events inside lists are
converted too), so it can be used without the library. -/
theorem C03_named_tuple_is_plain (e : DpEvent) : NoAttrs (PyVal.toNT e.toPy) := e.noAttrs_toNT

/-- **C03.** Different events have different named tuples. -/
theorem C03_named_tuple_injective (e f : DpEvent) (h : PyVal.toNT e.toPy = PyVal.toNT f.toPy) : e = f := by
  apply DpEvent.toPy_inj
  rw [← C03_named_tuple_round_trip e, ← C03_named_tuple_round_trip f, h]

example : PyVal.toNT (DpEvent.toPy (.composed [.selfComposed (.gaussian (.int 1)) 3])) =
    .namedTuple eventModule "ComposedDpEvent" ["events"] [.seq [
      .namedTuple eventModule "SelfComposedDpEvent" ["event", "count"]
        [.namedTuple eventModule "GaussianDpEvent" ["noise_multiplier"] [.num (.int 1)], .num (.int 3)]]] := by
  simp [DpEvent.toPy, DpEvent.toPyList, PyVal.toNT, PyVal.toFields, PyVal.toField, PyVal.toElems]

end Verif.Props
