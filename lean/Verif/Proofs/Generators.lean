import Verif.Spec.Generators
import Mathlib.Data.List.Basic
import Mathlib.Data.List.Range
import Mathlib.Data.List.TakeDrop
import Mathlib.Tactic.Ring
import Mathlib.Tactic.Push

/-!
# Proofs about the data set generators
-/

namespace Verif

open Spec

namespace Generators

theorem reshape_ok {a : List ℝ} {n d : ℕ} (h : a.length = n * d) :
    reshape a n d = .ok ((List.range n).map fun i => (a.drop (i * d)).take d) := by
  rw [reshape, if_pos h]

theorem flatten_chunks (a : List ℝ) (n d : ℕ) : ((List.range n).map fun i => (a.drop (i * d)).take d).flatten = a.take (n * d) := by
  induction n with
  | zero => simp
  | succ n ih =>
    rw [List.range_succ, List.map_append, List.flatten_append, ih, Nat.succ_mul, List.take_add]
    simp

theorem chunk_length {a : List ℝ} {n d : ℕ} (h : a.length = n * d) {row : List ℝ}
    (hr : row ∈ (List.range n).map fun i => (a.drop (i * d)).take d) : row.length = d := by
  obtain ⟨i, hi, rfl⟩ := List.mem_map.1 hr
  rw [List.mem_range] at hi
  have h1 : (i + 1) * d ≤ n * d := Nat.mul_le_mul_right d hi
  rw [Nat.succ_mul] at h1
  simp only [List.length_take, List.length_drop, h]
  omega

theorem mem_sparse {data : List (List ℝ)} {r : ℕ × ℕ × ℝ} :
    r ∈ sparse data ↔ ∃ row, data[r.1]? = some row ∧ row[r.2.1]? = some r.2.2 := by
  simp only [sparse, List.mem_flatten, List.mem_map, Prod.exists]
  constructor
  · rintro ⟨l, ⟨row, i, h1, rfl⟩, h2⟩
    rw [List.mem_zipIdx_iff_getElem?] at h1
    obtain ⟨⟨v, j⟩, h3, rfl⟩ := List.mem_map.1 h2
    rw [List.mem_zipIdx_iff_getElem?] at h3
    exact ⟨row, h1, h3⟩
  · rintro ⟨row, h1, h2⟩
    refine ⟨_, ⟨row, r.1, List.mem_zipIdx_iff_getElem?.2 h1, rfl⟩, List.mem_map.2 ⟨(r.2.2, r.2.1), List.mem_zipIdx_iff_getElem?.2 h2, rfl⟩⟩

theorem sparse_concat (data : List (List ℝ)) (row : List ℝ) :
    sparse (data ++ [row]) = sparse data ++ row.zipIdx.map fun v => (data.length, v.2, v.1) := by
  simp [sparse, List.zipIdx_append]

theorem sparse_fst_lt {data : List (List ℝ)} {r : ℕ × ℕ × ℝ} (h : r ∈ sparse data) : r.1 < data.length := by
  obtain ⟨row, h1, _⟩ := mem_sparse.1 h
  exact (List.getElem?_eq_some_iff.1 h1).1

end Generators

namespace VizierGenerator

theorem lookup_table {f : ℕ → ParamName} (hf : Function.Injective f) {g : ℕ → ℕ} {l : List ℕ} {i : ℕ} (h : i ∈ l) :
    (l.map fun i => (f i, g i)).lookup (f i) = some (g i) := by
  induction l with
  | nil => simp at h
  | cons a l ih =>
    rw [List.map_cons, List.lookup_cons]
    by_cases e : i = a
    · subst e; simp
    · have : (f i == f a) = false := by simpa using fun q => e (hf q)
      rw [this]
      exact ih ((List.mem_cons.1 h).resolve_left e)

/-- Filling an array from a dict whose keys the table knows: every entry is the value of its key. -/
theorem fill_ok {table : List (ParamName × ℕ)} {name : ℕ → ParamName} {v : ℕ → ℝ} {n : ℕ}
    (ht : ∀ i < n, table.lookup (name i) = some i) {is : List ℕ} (hnd : is.Nodup) (his : ∀ i ∈ is, i < n) {data : List ℝ} (hd : data.length = n) :
    ∃ out, fill table (is.map fun i => (name i, v i)) data = .ok out ∧ out.length = n ∧
      ∀ i, out[i]? = if i ∈ is then some (v i) else data[i]? := by
  induction is generalizing data with
  | nil => exact ⟨data, rfl, hd, fun i => by simp⟩
  | cons a is ih =>
    rw [List.nodup_cons] at hnd
    have ha : a < n := his a (by simp)
    obtain ⟨out, h1, h2, h3⟩ := ih hnd.2 (fun i hi => his i (by simp [hi])) (data := data.set a (v a)) (by simpa using hd)
    refine ⟨out, ?_, h2, ?_⟩
    · rw [List.map_cons, fill, ht a ha]
      simp only [setEntry, hd, ha, if_true]
      exact h1
    · intro i
      rw [h3 i]
      by_cases e : i = a
      · subst e
        simp [hnd.1, hd, ha]
      · simp [e, Ne.symm e]

theorem fill_eq {table : List (ParamName × ℕ)} {name : ℕ → ParamName} {v : ℕ → ℝ} {n : ℕ}
    (ht : ∀ i < n, table.lookup (name i) = some i) {ps : List (ParamName × ℝ)}
    (hp : ps.Perm ((List.range n).map fun i => (name i, v i))) :
    fill table ps (List.replicate n 0) = .ok ((List.range n).map v) := by
  have : ∃ is : List ℕ, ps = is.map (fun i => (name i, v i)) ∧ is.Perm (List.range n) := by
    refine ⟨ps.map fun p => (table.lookup p.1).getD 0, ?_, ?_⟩
    · rw [List.map_map]
      refine (List.map_id ps).symm.trans (List.map_congr_left fun p hps => ?_)
      obtain ⟨i, hi, rfl⟩ := List.mem_map.1 (hp.mem_iff.1 hps)
      simp [ht i (List.mem_range.1 hi)]
    · refine (hp.map _).trans (List.Perm.of_eq ?_)
      rw [List.map_map]
      refine (List.map_congr_left fun i hi => ?_).trans (List.map_id _)
      simp [ht i (List.mem_range.1 hi)]
  obtain ⟨is, rfl, hperm⟩ := this
  obtain ⟨out, h1, h2, h3⟩ := fill_ok (v := v) ht (hperm.symm.nodup List.nodup_range) (fun i hi => List.mem_range.1 (hperm.mem_iff.1 hi))
    (data := List.replicate n 0) (by simp)
  rw [h1]
  congr 1
  refine List.ext_getElem? fun i => ?_
  rw [h3 i]
  by_cases hi : i < n
  · rw [if_pos (hperm.mem_iff.2 (List.mem_range.2 hi))]
    simp [hi]
  · rw [if_neg (fun q => hi (List.mem_range.1 (hperm.mem_iff.1 q)))]
    simp [hi]

theorem fill_length {table : List (ParamName × ℕ)} {ps : List (ParamName × ℝ)} {data out : List ℝ} (h : fill table ps data = .ok out) :
    out.length = data.length := by
  induction ps generalizing data with
  | nil => rw [fill] at h; cases h; rfl
  | cons p ps ih =>
    obtain ⟨name, v⟩ := p
    rw [fill] at h
    cases hl : table.lookup name with
    | none => rw [hl] at h; cases h
    | some i =>
      rw [hl] at h
      simp only [setEntry] at h
      by_cases hi : i < data.length
      · rw [if_pos hi] at h
        rw [ih h, List.length_set]
      · rw [if_neg hi] at h; cases h

/-- What a successful call has computed. -/
theorem call_ok {D : Type} {f : List ℝ → Except Err D} {last : Option ℝ} {g g' : VizierGenerator} {d : D} (h : call f last g = (g', .ok d)) :
    ∃ params, params.length = g.numVizierParams ∧ f params = .ok d := by
  unfold call at h
  generalize hg1 : report last g = g1 at h
  have hn : g1.numVizierParams = g.numVizierParams := by
    rw [← hg1]; unfold report
    cases last with
    | none => rfl
    | some r =>
      simp only
      split_ifs
      · rfl
      · rw [completeTrial]; split <;> rfl
  cases hl : loadTrial g1 with
  | mk g2 res =>
    rw [hl] at h
    have hn2 : g2.numVizierParams = g.numVizierParams := by
      rw [← hn, loadTrial] at *
      simp only at hl
      split at hl <;> (cases hl; split_ifs <;> rfl)
    cases res with
    | error e => cases h
    | ok u =>
      simp only at h
      cases he : extract g2 with
      | error e => rw [he] at h; cases h
      | ok params =>
        rw [he] at h
        refine ⟨params, ?_, congrArg Prod.snd h⟩
        rw [extract] at he
        split at he
        · cases he
        · rw [fill_length he, List.length_replicate, hn2]

theorem lookup_init {n i : ℕ} (h : i < n) : ((List.range n).map fun i => (ParamName.x i, i)).lookup (.x i) = some i :=
  lookup_table (f := ParamName.x) (g := id) (fun a b h => by injection h) (List.mem_range.2 h)

/-- The generator after some trials have been completed. -/
def after (study : Study) (n k : ℕ) (t : VizierTrial) (done : List (VizierTrial × ℝ)) : VizierGenerator :=
  ⟨(List.range n).map fun i => (.x i, i), n, true, some t, ⟨study.policy, study.asked + k, study.completed ++ done⟩⟩

theorem call_after {D : Type} (f : List ℝ → Except Err D) {study : Study} {n k : ℕ} {t t' : VizierTrial} {done : List (VizierTrial × ℝ)}
    {r : ℝ} (hr : r ≠ 0) (ht : study.policy (study.completed ++ (done ++ [(t, r)])) (study.asked + k) = some t') {v : ℕ → ℝ}
    (hv : Assigns .x n t' v) : call f (some r) (after study n k t done) = (after study n (k + 1) t' (done ++ [(t, r)]), f ((List.range n).map v)) := by
  rw [call]
  simp only [report, if_neg hr, completeTrial, after, loadTrial]
  simp only [Bool.false_eq_true, if_false, ht, extract, Option.isSome_some, fill_eq (fun i hi => lookup_init hi) hv, List.append_assoc,
    Nat.add_assoc]

theorem call_init {D : Type} (f : List ℝ → Except Err D) {study : Study} {n : ℕ} {t' : VizierTrial}
    (ht : study.policy study.completed study.asked = some t') {v : ℕ → ℝ}
    (hv : Assigns .x n t' v) : call f none (init study n) = (after study n 1 t' [], f ((List.range n).map v)) := by
  rw [call]
  simp only [report, init, after, loadTrial, Bool.false_eq_true, if_false, ht, extract, Option.isSome_some, fill_eq (fun i hi => lookup_init hi) hv,
    List.append_nil]

theorem session_append {σ α : Type} (call : Option ℝ → σ → σ × Except Err α) (l l' : List (Option ℝ)) (g : σ) :
    session call (l ++ l') g = ((session call l' (session call l g).1).1, (session call l g).2 ++ (session call l' (session call l g).1).2) := by
  induction l generalizing g with
  | nil => rfl
  | cons r l ih => simp [session, ih]

end VizierGenerator
end Verif
