import Verif.Lemmas.NpAxes

namespace Verif
open List
namespace NdArr

variable {α : Type*} [Zero α]

/-- Exchange of `i` and `j`. -/
def sw (i j k : ℕ) : ℕ := if k = i then j else if k = j then i else k

theorem sw_sw (i j k : ℕ) : sw i j (sw i j k) = k := by
  unfold sw; split_ifs <;> simp_all

theorem sw_lt {i j k n : ℕ} (hi : i < n) (hj : j < n) (hk : k < n) : sw i j k < n := by
  unfold sw; split_ifs <;> omega

theorem sw_axesOK {i j n : ℕ} (hi : i < n) (hj : j < n) : AxesOK ((range n).map (sw i j)) := by
  unfold AxesOK
  rw [length_map, length_range]
  refine (List.perm_ext_iff_of_nodup ?_ nodup_range).2 ?_
  · exact nodup_range.map (fun a b h => by have := congrArg (sw i j) h; rwa [sw_sw, sw_sw] at this)
  · intro a
    simp only [mem_map, mem_range]
    constructor
    · rintro ⟨k, hk, rfl⟩; exact sw_lt hi hj hk
    · intro ha; exact ⟨sw i j a, sw_lt hi hj ha, sw_sw i j a⟩

theorem unperm_sw {i j : ℕ} {idx : List ℕ} (hi : i < idx.length) (hj : j < idx.length) :
    unperm ((range idx.length).map (sw i j)) idx = (range idx.length).map fun k => idx.getD (sw i j k) 0 := by
  apply unperm_eq (sw_axesOK hi hj) (by simp)
  intro k hk
  simp only [length_map, length_range] at hk
  rw [getD_eq_getElem' (l := (range idx.length).map (sw i j)) (by simpa)]
  simp only [getElem_map, getElem_range]
  rw [getD_eq_getElem' (by simpa using sw_lt hi hj hk)]
  simp [sw_sw]

/-- the list with entries `i` and `j` exchanged -/
def swapL (i j : ℕ) (l : List ℕ) : List ℕ := (range l.length).map fun k => l.getD (sw i j k) 0

theorem length_swapL (i j : ℕ) (l : List ℕ) : (swapL i j l).length = l.length := by simp [swapL]

theorem getD_swapL {i j k : ℕ} {l : List ℕ} (hk : k < l.length) :
    (swapL i j l).getD k 0 = l.getD (sw i j k) 0 := by
  rw [getD_eq_getElem' (by simpa [swapL])]; simp [swapL]

theorem swapaxes_ofFn {s : List ℕ} {i j : ℕ} (f : List ℕ → α) (hi : i < s.length) (hj : j < s.length) :
    (ofFn s f).swapaxes i j = ofFn (swapL i j s) fun idx => f (swapL i j idx) := by
  unfold swapaxes
  rw [show (ofFn s f).shape = s from rfl]
  rw [show (fun k => if k = i then j else if k = j then i else k) = sw i j from rfl]
  rw [transpose_ofFn f (sw_axesOK hi hj) (by simp)]
  rw [show ((range s.length).map (sw i j)).map (fun j => s.getD j 0) = swapL i j s by simp [swapL]]
  apply ofFn_congr
  intro idx hidx
  have hl := length_of_mem_indices hidx
  rw [length_swapL] at hl
  rw [← hl, unperm_sw (hl ▸ hi) (hl ▸ hj)]
  rfl

/-- `np.swapaxes(np.swapaxes(a,0,i)[perm,...],0,i)` reindexes axis `i` by `perm`. -/
theorem take_axis_swapaxes {s perm : List ℕ} {i : ℕ} (f : List ℕ → α) (hi : i < s.length)
    (hp : ∀ x ∈ perm, x < s.getD i 0) :
    (((ofFn s f).swapaxes 0 i).takeFirst perm).swapaxes 0 i =
      ofFn (s.set i perm.length) fun idx => f (idx.set i (perm.getD (idx.getD i 0) 0)) := by
  have hn : 0 < s.length := by omega
  rw [swapaxes_ofFn f hn hi]
  have h0 : swapL 0 i s = s.getD i 0 :: (swapL 0 i s).tail := by
    apply list_ext_getD 0
    · simp [length_swapL]; omega
    · intro k hk
      rw [length_swapL] at hk
      cases k with
      | zero => rw [getD_swapL hk]; simp [sw]
      | succ k => rw [getD_cons_succ]; simp [getD_eq_getElem?_getD, getElem?_tail]
  have hc : (ofFn (swapL 0 i s) fun idx => f (swapL 0 i idx)).takeFirst perm =
      ofFn (perm.length :: (swapL 0 i s).tail) fun idx => f (swapL 0 i (perm.getD (idx.headD 0) 0 :: idx.tail)) := by
    unfold takeFirst
    simp only [ofFn]
    congr 1
    apply map_congr_left
    intro idx hidx
    rw [mem_indices] at hidx
    cases hidx with
    | @cons x n t s' h1 h2 =>
      apply get_ofFn (swapL 0 i s) (fun idx => f (swapL 0 i idx))
      rw [h0, mem_indices]
      refine .cons ?_ h2
      apply hp
      simp only [headD_cons]
      rw [getD_eq_getElem' h1]; exact getElem_mem _
  have hlen : (perm.length :: (swapL 0 i s).tail).length = s.length := by simp [length_swapL]; omega
  rw [hc, swapaxes_ofFn _ (by omega) (by omega)]
  have hs : swapL 0 i (perm.length :: (swapL 0 i s).tail) = s.set i perm.length := by
    apply list_ext_getD 0
    · rw [length_swapL, hlen, length_set]
    · intro k hk
      rw [length_swapL, hlen] at hk
      rw [getD_swapL (by omega)]
      by_cases hki : k = i
      · subst hki
        have : sw 0 k k = 0 := by unfold sw; split_ifs <;> omega
        rw [this, getD_cons_zero, getD_eq_getElem' (by simpa)]; simp
      · rw [getD_eq_getElem' (l := s.set _ _) (by simpa), getElem_set_ne (by omega)]
        have hsw : sw 0 i k ≠ 0 := by unfold sw; split_ifs <;> omega
        obtain ⟨m, hm⟩ := Nat.exists_eq_succ_of_ne_zero hsw
        rw [hm, Nat.succ_eq_add_one, getD_cons_succ]
        have : (swapL 0 i s).tail.getD m 0 = (swapL 0 i s).getD (m+1) 0 := by
          simp [getD_eq_getElem?_getD, getElem?_tail]
        rw [this, ← Nat.succ_eq_add_one, ← hm, getD_swapL (sw_lt hn hi hk), sw_sw, getD_eq_getElem']
  rw [hs]
  apply ofFn_congr
  intro idx hidx
  have hl := length_of_mem_indices hidx
  rw [length_set] at hl
  congr 1
  have hn' : 0 < idx.length := by omega
  have hlen' : (perm.getD ((swapL 0 i idx).headD 0) 0 :: (swapL 0 i idx).tail).length = idx.length := by
    simp [length_swapL]; omega
  have hh : (swapL 0 i idx).headD 0 = idx.getD i 0 := by
    have := getD_swapL (i := 0) (j := i) hn'
    rw [show sw 0 i 0 = i by simp [sw]] at this
    rw [← this]; simp [getD_eq_getElem?_getD, headD_eq_head?_getD, head?_eq_getElem?]
  rw [hh]; rw [hh] at hlen'
  apply list_ext_getD 0
  · rw [length_swapL, hlen', length_set]
  · intro k hk
    rw [length_swapL, hlen'] at hk
    rw [getD_swapL (by omega)]
    by_cases hki : k = i
    · subst hki
      have : sw 0 k k = 0 := by unfold sw; split_ifs <;> omega
      rw [this, getD_cons_zero, getD_eq_getElem' (l := idx.set _ _) (by simpa)]; simp
    · rw [getD_eq_getElem' (l := idx.set _ _) (by simpa), getElem_set_ne (by omega)]
      have hsw : sw 0 i k ≠ 0 := by unfold sw; split_ifs <;> omega
      obtain ⟨m, hm⟩ := Nat.exists_eq_succ_of_ne_zero hsw
      rw [hm, Nat.succ_eq_add_one, getD_cons_succ]
      have : (swapL 0 i idx).tail.getD m 0 = (swapL 0 i idx).getD (m+1) 0 := by
        simp [getD_eq_getElem?_getD, getElem?_tail]
      rw [this, ← Nat.succ_eq_add_one, ← hm, getD_swapL (sw_lt hn' (by omega) hk), sw_sw, getD_eq_getElem']

end NdArr
end Verif
