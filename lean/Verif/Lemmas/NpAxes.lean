import Verif.Lemmas.Np
import Mathlib.Data.List.InsertIdx

namespace Verif
open List
namespace NdArr

variable {α : Type*} [Zero α]

theorem getD_eq_getElem' {α} {l : List α} {d : α} {i : ℕ} (h : i < l.length) : l.getD i d = l[i] := by
  simp [getD_eq_getElem?_getD, getElem?_eq_getElem h]

theorem list_ext_getD {α} {l m : List α} (d : α) (hl : l.length = m.length)
    (h : ∀ i < l.length, l.getD i d = m.getD i d) : l = m := by
  apply List.ext_getElem hl
  intro i h1 h2
  have := h i h1
  rwa [getD_eq_getElem' h1, getD_eq_getElem' h2] at this

theorem length_unperm (axes idx : List ℕ) : (unperm axes idx).length = axes.length := by simp [unperm]

theorem getD_unperm {axes idx : List ℕ} {j : ℕ} (hj : j < axes.length) :
    (unperm axes idx).getD j 0 = idx.getD (axes.idxOf j) 0 := by
  rw [getD_eq_getElem' (by simpa [unperm] using hj)]; simp [unperm]

/-- `axes` lists every axis exactly once. -/
def AxesOK (axes : List ℕ) : Prop := axes ~ range axes.length

theorem AxesOK.mem {axes : List ℕ} (h : AxesOK axes) {j : ℕ} : j ∈ axes ↔ j < axes.length := by
  rw [h.mem_iff, mem_range]

theorem AxesOK.nodup {axes : List ℕ} (h : AxesOK axes) : axes.Nodup := h.nodup_iff.2 nodup_range

theorem unperm_eq {axes idx idx' : List ℕ} (h : AxesOK axes) (hl : idx'.length = axes.length)
    (hk : ∀ k < axes.length, idx'.getD (axes.getD k 0) 0 = idx.getD k 0) :
    unperm axes idx = idx' := by
  apply list_ext_getD 0 (by rw [length_unperm, hl])
  intro j hj
  rw [length_unperm] at hj
  have hm : j ∈ axes := h.mem.2 hj
  have hi : axes.idxOf j < axes.length := idxOf_lt_length_iff.2 hm
  rw [getD_unperm hj, ← hk _ hi, getD_eq_getElem' hi, getElem_idxOf]

theorem getD_unperm_axes {axes idx : List ℕ} (h : AxesOK axes) {k : ℕ} (hk : k < axes.length) :
    (unperm axes idx).getD (axes.getD k 0) 0 = idx.getD k 0 := by
  have hm : axes.getD k 0 ∈ axes := by rw [getD_eq_getElem' hk]; exact getElem_mem _
  rw [getD_unperm (h.mem.1 hm), getD_eq_getElem' hk, h.nodup.idxOf_getElem]

theorem unperm_mem {axes s idx : List ℕ} (h : AxesOK axes) (hs : s.length = axes.length)
    (hi : idx ∈ indices (axes.map fun j => s.getD j 0)) : unperm axes idx ∈ indices s := by
  rw [mem_indices_iff_getD] at hi ⊢
  refine ⟨by rw [length_unperm, hs], fun j hj => ?_⟩
  rw [hs] at hj
  have hm : j ∈ axes := h.mem.2 hj
  have hx : axes.idxOf j < axes.length := idxOf_lt_length_iff.2 hm
  rw [getD_unperm hj]
  have := hi.2 (axes.idxOf j) (by simpa using hx)
  rw [getD_eq_getElem' (l := axes.map _) (by simpa using hx)] at this
  simpa using this

/-- Transposing an array given by a function. -/
theorem transpose_ofFn {axes s : List ℕ} (f : List ℕ → α) (h : AxesOK axes) (hs : s.length = axes.length) :
    (ofFn s f).transpose axes =
      ofFn (axes.map fun j => s.getD j 0) fun idx => f (unperm axes idx) := by
  unfold transpose
  apply ofFn_congr
  intro idx hi
  exact get_ofFn s f (unperm_mem h hs hi)

theorem moveaxisOrder_perm {n i k : ℕ} (hi : i < n) (hk : k < n) :
    moveaxisOrder n i k ~ range n := by
  unfold moveaxisOrder
  have h1 : ((range n).eraseIdx i).length = n - 1 := by rw [length_eraseIdx_of_lt (by simpa)]; simp
  refine (perm_insertIdx _ _ (by omega)).trans ?_
  have := getElem_cons_eraseIdx_perm (l := range n) (n := i) (by simpa)
  simpa using this

theorem moveaxisOrder_axesOK {n i k : ℕ} (hi : i < n) (hk : k < n) : AxesOK (moveaxisOrder n i k) := by
  have := moveaxisOrder_perm hi hk
  unfold AxesOK
  rw [this.length_eq, length_range]; exact this

theorem length_moveaxisOrder {n i k : ℕ} (hi : i < n) (hk : k < n) : (moveaxisOrder n i k).length = n := by
  rw [(moveaxisOrder_perm hi hk).length_eq, length_range]

/-- Moving axis `i` to the front. -/
theorem moveaxis_front_ofFn {s : List ℕ} {i : ℕ} (f : List ℕ → α) (hi : i < s.length) :
    (ofFn s f).moveaxis i 0 =
      ofFn (s.getD i 0 :: s.eraseIdx i) fun idx => f (idx.tail.insertIdx i (idx.headD 0)) := by
  have hn : 0 < s.length := by omega
  have hlen := length_moveaxisOrder hi hn
  unfold moveaxis
  rw [show (ofFn s f).shape = s from rfl, transpose_ofFn f (moveaxisOrder_axesOK hi hn) (by simp [hlen])]
  have hmap : (moveaxisOrder s.length i 0).map (fun j => s.getD j 0)
      = s.getD i 0 :: s.eraseIdx i := by
    simp only [moveaxisOrder, insertIdx_zero, map_cons]
    congr 1
    rw [← eraseIdx_map]
    congr 1
    apply list_ext_getD 0 (by simp)
    intro j hj
    rw [getD_eq_getElem' hj]; simp
  rw [hmap]
  apply ofFn_congr
  intro idx hidx
  congr 1
  have hl := length_of_mem_indices hidx
  cases idx with
  | nil => simp at hl
  | cons x t =>
    have ht : t.length = s.length - 1 := by
      simpa [length_eraseIdx_of_lt hi] using hl
    apply unperm_eq (moveaxisOrder_axesOK hi hn)
    · simp only [hlen, tail_cons]; rw [length_insertIdx_of_le_length (by omega)]; omega
    · intro k hk
      simp only [hlen] at hk
      simp only [moveaxisOrder, insertIdx_zero, tail_cons, headD_cons]
      have e1 : ((range s.length).eraseIdx i).length = s.length - 1 := by
        rw [length_eraseIdx_of_lt (by simpa)]; simp
      cases k with
      | zero =>
        rw [getD_cons_zero, getD_cons_zero, getD_eq_getElem' (by rw [length_insertIdx_of_le_length (by omega)]; omega)]
        simp
      | succ k =>
        rw [getD_cons_succ, getD_cons_succ, getD_eq_getElem' (by omega : k < ((range s.length).eraseIdx i).length),
          getElem_eraseIdx]
        rw [getD_eq_getElem' (l := t) (by omega)]
        by_cases hki : k < i
        · rw [dif_pos hki, getElem_range, getD_eq_getElem' (by rw [length_insertIdx_of_le_length (by omega)]; omega),
            getElem_insertIdx_of_lt hki]
        · rw [dif_neg hki, getElem_range, getD_eq_getElem' (by rw [length_insertIdx_of_le_length (by omega)]; omega),
            getElem_insertIdx_of_gt (by omega)]
          simp

/-- Moving the leading axis to position `i`. -/
theorem moveaxis_back_ofFn {n : ℕ} {t : List ℕ} {i : ℕ} (f : List ℕ → α) (hi : i ≤ t.length) :
    (ofFn (n :: t) f).moveaxis 0 i =
      ofFn (t.insertIdx i n) fun idx => f (idx.getD i 0 :: idx.eraseIdx i) := by
  have hn : 0 < (n :: t).length := by simp
  have hi' : i < (n :: t).length := by simp; omega
  have hlen := length_moveaxisOrder hn hi'
  have hr : (range (n :: t).length).eraseIdx 0 = (range t.length).map (· + 1) := by
    rw [length_cons, range_succ_eq_map]; simp
  unfold moveaxis
  rw [show (ofFn (n :: t) f).shape = n :: t from rfl, transpose_ofFn f (moveaxisOrder_axesOK hn hi') hlen.symm]
  have hmap : (moveaxisOrder (n :: t).length 0 i).map (fun j => (n :: t).getD j 0)
      = t.insertIdx i n := by
    simp only [moveaxisOrder, hr]
    rw [map_insertIdx, map_map]
    congr 1
    apply list_ext_getD 0 (by simp)
    intro j hj
    rw [getD_eq_getElem' hj]; simp
  rw [hmap]
  apply ofFn_congr
  intro idx hidx
  congr 1
  have hl := length_of_mem_indices hidx
  rw [length_insertIdx_of_le_length hi] at hl
  apply unperm_eq (moveaxisOrder_axesOK hn hi')
  · rw [hlen, length_cons]; simp only [length_cons]; rw [length_eraseIdx_of_lt (by omega)]; omega
  · intro k hk
    rw [hlen, length_cons] at hk
    simp only [moveaxisOrder, hr]
    rw [getD_eq_getElem' (l := insertIdx _ _ _) (by rw [length_insertIdx_of_le_length (by simpa)]; simpa)]
    rcases lt_trichotomy k i with h | h | h
    · rw [getElem_insertIdx_of_lt h]
      simp only [getElem_map, getElem_range, getD_cons_succ]
      rw [getD_eq_getElem' (by rw [length_eraseIdx_of_lt (by omega)]; omega), getElem_eraseIdx_of_lt _ h,
        getD_eq_getElem']
    · subst h; simp
    · rw [getElem_insertIdx_of_gt h]
      simp only [getElem_map, getElem_range, getD_cons_succ]
      rw [getD_eq_getElem' (by rw [length_eraseIdx_of_lt (by omega)]; omega), getElem_eraseIdx_of_ge _ (by omega),
        getD_eq_getElem' (by omega)]
      congr 1; omega

/-- `np.moveaxis(np.moveaxis(a,i,0)[perm,...],0,i)` reindexes axis `i` by `perm`. -/
theorem take_axis_moveaxis {s perm : List ℕ} {i : ℕ} (f : List ℕ → α) (hi : i < s.length)
    (hp : ∀ x ∈ perm, x < s.getD i 0) :
    (((ofFn s f).moveaxis i 0).takeFirst perm).moveaxis 0 i =
      ofFn (s.set i perm.length) fun idx => f (idx.set i (perm.getD (idx.getD i 0) 0)) := by
  have he : (s.eraseIdx i).length = s.length - 1 := length_eraseIdx_of_lt hi
  rw [moveaxis_front_ofFn f hi]
  unfold takeFirst
  have hc : ofFn (perm.length :: (ofFn (s.getD i 0 :: s.eraseIdx i) fun idx => f (idx.tail.insertIdx i (idx.headD 0))).shape.tail)
      (fun idx => (ofFn (s.getD i 0 :: s.eraseIdx i) fun idx => f (idx.tail.insertIdx i (idx.headD 0))).get
        (perm.getD (idx.headD 0) 0 :: idx.tail))
      = ofFn (perm.length :: s.eraseIdx i) (fun idx => f (idx.tail.insertIdx i (perm.getD (idx.headD 0) 0))) := by
    simp only [ofFn, tail_cons]
    congr 1
    apply map_congr_left
    intro idx hidx
    rw [mem_indices] at hidx
    cases hidx with
    | @cons x n t s' h1 h2 =>
      have := get_ofFn (s.getD i 0 :: s.eraseIdx i) (fun idx => f (idx.tail.insertIdx i (idx.headD 0)))
        (idx := perm.getD x 0 :: t) (by
          rw [mem_indices]
          refine .cons ?_ h2
          apply hp
          rw [getD_eq_getElem' h1]; exact getElem_mem _)
      simpa [ofFn] using this
  rw [hc, moveaxis_back_ofFn _ (by omega)]
  have hs : (s.eraseIdx i).insertIdx i perm.length = s.set i perm.length := by
    rw [insertIdx_eraseIdx_self (by omega)]
  rw [hs]
  apply ofFn_congr
  intro idx hidx
  have hl := length_of_mem_indices hidx
  simp only [length_set] at hl
  congr 1
  simp only [tail_cons, headD_cons]
  rw [insertIdx_eraseIdx_self (by omega)]

end NdArr
end Verif
