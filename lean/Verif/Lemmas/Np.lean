import Verif.Model.Np
import Mathlib.Data.List.Perm.Basic
import Mathlib.Data.List.Forall2
import Mathlib.Data.List.Nodup
import Mathlib.Data.List.Range
import Mathlib.Data.List.Flatten
import Mathlib.Tactic.Ring
import Mathlib.Tactic.Linarith

namespace Verif
open List

theorem mem_indices {s idx : List ℕ} : idx ∈ indices s ↔ Forall₂ (· < ·) idx s := by
  induction s generalizing idx with
  | nil => simp [indices]
  | cons n s ih =>
    simp only [indices, mem_flatMap, mem_range, mem_map]
    constructor
    · rintro ⟨i, hi, t, ht, rfl⟩
      exact .cons hi (ih.1 ht)
    · intro h
      cases h with
      | cons h1 h2 => exact ⟨_, h1, _, ih.2 h2, rfl⟩

theorem length_indices (s : List ℕ) : (indices s).length = s.prod := by
  induction s with
  | nil => rfl
  | cons n s ih => simp [indices, length_flatMap, ih]

theorem ravel_lt {s idx : List ℕ} (h : idx ∈ indices s) : ravel s idx < s.prod := by
  rw [mem_indices] at h
  induction h with
  | nil => simp [ravel]
  | @cons i n is s h1 h2 ih =>
    simp only [ravel, prod_cons]
    calc i * s.prod + ravel s is < i * s.prod + s.prod := by omega
      _ = (i+1) * s.prod := by ring
      _ ≤ n * s.prod := Nat.mul_le_mul_right _ h1

theorem map_range_add (a b : ℕ) : (range (a * b)).map id = (range a).flatMap fun i => (range b).map fun j => i * b + j := by
  induction a with
  | zero => simp
  | succ a ih =>
    rw [Nat.succ_mul, range_add, range_succ, flatMap_append, ← ih]
    simp

/-- Flattening multi-indices in row-major order enumerates `0,1,2,...`. -/
theorem map_ravel_indices (s : List ℕ) : (indices s).map (ravel s) = range s.prod := by
  induction s with
  | nil => simp [indices, ravel]
  | cons n s ih =>
    rw [prod_cons, ← map_id (range _), map_range_add, indices, map_flatMap]
    congr 1; funext i
    rw [← ih, map_map, map_map]
    rfl

theorem nodup_indices (s : List ℕ) : (indices s).Nodup := by
  have := map_ravel_indices s ▸ (nodup_range (n := s.prod))
  exact Nodup.of_map _ this

theorem getElem_indices_ravel {s idx : List ℕ} (h : idx ∈ indices s) :
    (indices s)[ravel s idx]? = some idx := by
  obtain ⟨k, hk, rfl⟩ := getElem_of_mem h
  have h2 : ravel s (indices s)[k] = k := by
    have := congrArg (·[k]?) (map_ravel_indices s)
    simp only [getElem?_map, getElem?_eq_getElem hk, Option.map_some] at this
    rw [getElem?_eq_getElem (by rw [length_range, ← length_indices]; exact hk)] at this
    simpa using this
  rw [h2, getElem?_eq_getElem hk]

theorem ravel_inj {s a b : List ℕ} (ha : a ∈ indices s) (hb : b ∈ indices s)
    (h : ravel s a = ravel s b) : a = b := by
  have h1 := getElem_indices_ravel ha
  have h2 := getElem_indices_ravel hb
  rw [h, h2] at h1
  simpa using h1.symm

theorem indices_append (s t : List ℕ) :
    indices (s ++ t) = (indices s).flatMap fun a => (indices t).map (a ++ ·) := by
  induction s with
  | nil => simp [indices]
  | cons n s ih =>
    simp only [cons_append, indices, ih, flatMap_assoc, map_flatMap, flatMap_map, map_map]
    rfl

theorem ravel_append {s t a b : List ℕ} (ha : a ∈ indices s) :
    ravel (s ++ t) (a ++ b) = ravel s a * t.prod + ravel t b := by
  rw [mem_indices] at ha
  induction ha with
  | nil => simp [ravel]
  | cons h1 h2 ih => simp only [cons_append, ravel, ih, prod_append]; ring

theorem length_of_mem_indices {s a : List ℕ} (ha : a ∈ indices s) : a.length = s.length :=
  (mem_indices.1 ha).length_eq

theorem getD_map_indices {α} (s : List ℕ) (f : List ℕ → α) (d : α) {idx : List ℕ}
    (h : idx ∈ indices s) : ((indices s).map f).getD (ravel s idx) d = f idx := by
  rw [getD_eq_getElem?_getD, getElem?_map, getElem_indices_ravel h]; rfl

theorem lt_of_mem_indices {s a : List ℕ} (ha : a ∈ indices s) {i : ℕ} (hi : i < s.length) :
    a.getD i 0 < s.getD i 0 := by
  have h := mem_indices.1 ha
  have hl := h.length_eq
  have := h.get (i := i) (hl ▸ hi) hi
  simpa [getElem?_eq_getElem hi, getElem?_eq_getElem (hl ▸ hi : i < a.length)] using this

theorem mem_indices_iff_getD {s a : List ℕ} :
    a ∈ indices s ↔ a.length = s.length ∧ ∀ i < s.length, a.getD i 0 < s.getD i 0 := by
  constructor
  · intro h; exact ⟨length_of_mem_indices h, fun i hi => lt_of_mem_indices h hi⟩
  · rintro ⟨hl, h⟩
    rw [mem_indices, forall₂_iff_get]
    refine ⟨hl, fun i h1 h2 => ?_⟩
    simpa [getElem?_eq_getElem h1, getElem?_eq_getElem h2] using h i h2

namespace NdArr

variable {α : Type*} [Zero α]

theorem get_ofFn (s : List ℕ) (f : List ℕ → α) {idx : List ℕ} (h : idx ∈ indices s) :
    (ofFn s f).get idx = f idx := getD_map_indices s f 0 h

omit [Zero α] in
theorem ofFn_congr {s : List ℕ} {f g : List ℕ → α} (h : ∀ idx ∈ indices s, f idx = g idx) :
    ofFn s f = ofFn s g := by
  unfold ofFn; rw [map_congr_left h]

end NdArr
end Verif
