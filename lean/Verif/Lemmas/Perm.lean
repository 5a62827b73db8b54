import Verif.Lemmas.NpAxes

namespace Verif
open List NdArr

theorem length_gather (p q : List ℕ) : (gather p q).length = q.length := by simp [gather]

theorem getD_gather {p q : List ℕ} {i : ℕ} (hi : i < q.length) :
    (gather p q).getD i 0 = p.getD (q.getD i 0) 0 := by
  rw [getD_eq_getElem' (by simpa [gather])]
  simp [gather, getElem?_eq_getElem hi]

theorem gather_range {p : List ℕ} : gather p (range p.length) = p := by
  apply list_ext_getD 0 (by simp [gather])
  intro i hi
  rw [length_gather, length_range] at hi
  rw [getD_gather (by simpa), getD_eq_getElem' (l := range _) (by simpa)]; simp

theorem range_gather {n : ℕ} {q : List ℕ} (h : ∀ x ∈ q, x < n) : gather (range n) q = q := by
  unfold gather
  conv_rhs => rw [← map_id q]
  apply map_congr_left
  intro x hx
  rw [getD_eq_getElem' (by simpa using h x hx)]; simp

theorem gather_gather {p q r : List ℕ} (h : ∀ x ∈ r, x < q.length) :
    gather p (gather q r) = gather (gather p q) r := by
  unfold gather
  rw [map_map]
  apply map_congr_left
  intro x hx
  simp only [Function.comp]
  have := getD_gather (p := p) (h x hx)
  unfold gather at this
  rw [this]

theorem lt_of_perm_range {p : List ℕ} {n : ℕ} (h : p ~ range n) {x : ℕ} (hx : x ∈ p) : x < n := by
  simpa using h.mem_iff.1 hx

theorem length_of_perm_range {p : List ℕ} {n : ℕ} (h : p ~ range n) : p.length = n := by
  simpa using h.length_eq

theorem gather_perm {p q : List ℕ} {n : ℕ} (hp : p ~ range n) (hq : q ~ range n) : gather p q ~ range n := by
  have hl := length_of_perm_range hp
  refine (Perm.map _ hq).trans ?_
  have := gather_range (p := p)
  rw [hl] at this
  unfold gather at this
  rw [this]; exact hp

theorem argsort_perm (p : List ℕ) : argsort p ~ range p.length := perm_insertionSort _ _

theorem gather_argsort {p : List ℕ} {n : ℕ} (hp : p ~ range n) : gather p (argsort p) = range n := by
  have hl := length_of_perm_range hp
  have h1 : gather p (argsort p) ~ range n := gather_perm hp (hl ▸ argsort_perm p)
  apply h1.eq_of_pairwise (le := (· ≤ ·))
  · intro a b _ _ h1 h2; omega
  · unfold gather argsort
    rw [pairwise_map]
    have : Std.Total (fun i j => p.getD i 0 ≤ p.getD j 0) := ⟨fun a b => Nat.le_total _ _⟩
    have : IsTrans ℕ (fun i j => p.getD i 0 ≤ p.getD j 0) := ⟨fun a b c h1 h2 => Nat.le_trans h1 h2⟩
    exact pairwise_insertionSort _ _
  · have := pairwise_le_range (n := n); exact this

theorem getD_mem_of_lt {p : List ℕ} {i : ℕ} (h : i < p.length) : p.getD i 0 ∈ p := by
  rw [getD_eq_getElem' h]; exact getElem_mem _

theorem getD_inj {p : List ℕ} (hp : p.Nodup) {i j : ℕ} (hi : i < p.length) (hj : j < p.length)
    (h : p.getD i 0 = p.getD j 0) : i = j := by
  rw [getD_eq_getElem' hi, getD_eq_getElem' hj] at h
  exact (hp.getElem_inj_iff).1 h

theorem getD_range {n i : ℕ} (h : i < n) : (range n).getD i 0 = i := by
  rw [getD_eq_getElem' (by simpa)]; simp

theorem nodup_of_perm_range {p : List ℕ} {n : ℕ} (h : p ~ range n) : p.Nodup := h.nodup_iff.2 nodup_range

/-- `argsort` of a permutation is its two-sided inverse. -/
theorem argsort_gather {p : List ℕ} {n : ℕ} (hp : p ~ range n) : gather (argsort p) p = range n := by
  have hl := length_of_perm_range hp
  have ha : argsort p ~ range n := hl ▸ argsort_perm p
  have hla := length_of_perm_range ha
  apply list_ext_getD 0 (by rw [length_gather, hl, length_range])
  intro i hi
  rw [length_gather, hl] at hi
  rw [getD_gather (by omega), getD_range hi]
  have hlt : p.getD i 0 < n := lt_of_perm_range hp (getD_mem_of_lt (by omega))
  have hlt2 : (argsort p).getD (p.getD i 0) 0 < n := lt_of_perm_range ha (getD_mem_of_lt (by omega))
  apply getD_inj (nodup_of_perm_range hp) (by omega) (by omega)
  have := getD_gather (p := p) (q := argsort p) (i := p.getD i 0) (by omega)
  rw [gather_argsort hp, getD_range hlt] at this
  exact this.symm

/-- a right inverse of a permutation is its `argsort` -/
theorem argsort_eq {p q : List ℕ} {n : ℕ} (hp : p ~ range n) (hq : ∀ x ∈ q, x < n) (h : gather p q = range n) :
    argsort p = q := by
  have hl := length_of_perm_range hp
  have ha : argsort p ~ range n := hl ▸ argsort_perm p
  have hlq : q.length = n := by rw [← length_gather p q, h, length_range]
  have h1 : gather (argsort p) (gather p q) = argsort p := by
    have := gather_range (p := argsort p)
    rwa [length_of_perm_range ha, ← h] at this
  rw [← h1, gather_gather (by intro x hx; have := hq x hx; omega), argsort_gather hp]
  exact range_gather hq

theorem argsort_range (n : ℕ) : argsort (range n) = range n :=
  argsort_eq (Perm.refl _) (by simp) (range_gather (by simp))

theorem argsort_argsort {p : List ℕ} {n : ℕ} (hp : p ~ range n) : argsort (argsort p) = p := by
  have hl := length_of_perm_range hp
  have ha : argsort p ~ range n := hl ▸ argsort_perm p
  exact argsort_eq ha (fun x hx => lt_of_perm_range hp hx) (argsort_gather hp)

end Verif
