import Verif.Lemmas.Distribute

namespace Verif
open List NdArr

theorem takeAxesSwap_ofFn (ps : List (List ℕ)) (s : List ℕ) (i : ℕ) (f : List ℕ → ℕ)
    (hs : s.length = i + ps.length)
    (hp : ∀ k < ps.length, (ps.getD k []).length = s.getD (i + k) 0 ∧ ∀ x ∈ ps.getD k [], x < s.getD (i + k) 0) :
    takeAxesSwap i ps (NdArr.ofFn s f) = NdArr.ofFn s fun idx => f (applyFrom i ps idx) := by
  induction ps generalizing i f with
  | nil =>
    simp only [takeAxesSwap]
    apply NdArr.ofFn_congr
    intro idx hidx
    have hl := length_of_mem_indices hidx
    simp only [length_nil, add_zero] at hs
    simp [applyFrom, take_of_length_le (by omega : idx.length ≤ i)]
  | cons p ps ih =>
    simp only [length_cons] at hs
    have h0 := hp 0 (by simp)
    simp only [getD_cons_zero, add_zero] at h0
    simp only [takeAxesSwap]
    rw [take_axis_swapaxes f (by omega) h0.2]
    have hset : s.set i p.length = s := by
      rw [h0.1, getD_eq_getElem' (by omega)]; simp
    rw [hset, ih (i + 1) _ (by omega)]
    · apply NdArr.ofFn_congr
      intro idx hidx
      have hl := length_of_mem_indices hidx
      rw [applyFrom_set (by omega)]
    · intro k hk
      have := hp (k + 1) (by simpa)
      rw [getD_cons_succ] at this
      rwa [show i + 1 + k = i + (k + 1) by omega]

theorem arange_reshape (s : List ℕ) : (NdArr.arange s.prod).reshape s = NdArr.ofFn s (ravel s) := by
  simp only [NdArr.arange, NdArr.reshape, NdArr.ofFn, map_ravel_indices]

theorem swapOrder_eq (ps : List (List ℕ)) (hp : ∀ p ∈ ps, ∀ x ∈ p, x < p.length) :
    (takeAxesSwap 0 ps ((NdArr.arange (ps.map length).prod).reshape (ps.map length))).data =
      (indices (ps.map length)).map fun idx => ravel (ps.map length) (valOf ps idx) := by
  rw [arange_reshape, takeAxesSwap_ofFn ps _ 0 _ (by simp)]
  · simp only [NdArr.ofFn]
    apply map_congr_left
    intro idx _
    simp [applyFrom, valOf]
  · intro k hk
    have hk' : k < (ps.map length).length := by simpa
    rw [getD_eq_getElem' hk, zero_add, getD_eq_getElem' hk']
    simp only [getElem_map]
    exact ⟨trivial, hp _ (getElem_mem hk)⟩

theorem mem_ravel_indices {s : List ℕ} {i : ℕ} (hi : i < s.prod) : ∃ idx ∈ indices s, ravel s idx = i := by
  have : i ∈ (indices s).map (ravel s) := by rw [map_ravel_indices]; simpa
  obtain ⟨idx, h1, h2⟩ := mem_map.1 this
  exact ⟨idx, h1, h2⟩

namespace DMat
variable {R : Type*} [CommRing R]

/-- Reindexing every factor of a Kronecker product. -/
theorem kronL_pick_valOf (DP : List (DMat R × List ℕ)) (h : ∀ d ∈ DP, d.2 ~ range d.1.rows ∧ d.1.cols = d.1.rows) :
    let o := (indices ((DP.map (·.2)).map length)).map fun idx =>
      ravel ((DP.map (·.2)).map length) (valOf (DP.map (·.2)) idx)
    o ~ range (kronL (DP.map (·.1))).rows ∧
      (kronL (DP.map (·.1))).pick o o = kronL (DP.map fun d => d.1.pick d.2 d.2) := by
  set ps := DP.map (·.2) with hps
  set lens := ps.map length with hlens
  have hp1 : ∀ p ∈ ps, ∀ x ∈ p, x < p.length := by
    intro p hp x hx; obtain ⟨d, hd, rfl⟩ := mem_map.1 hp
    rw [length_of_perm_range (h d hd).1]; exact lt_of_perm_range (h d hd).1 hx
  have hp2 : ∀ p ∈ ps, p.Nodup := by
    intro p hp; obtain ⟨d, hd, rfl⟩ := mem_map.1 hp; exact nodup_of_perm_range (h d hd).1
  have hr : (DP.map (·.1)).map rows = lens := by
    rw [hlens, hps, map_map, map_map]; apply map_congr_left; intro d hd
    exact (length_of_perm_range (h d hd).1).symm
  have hc : (DP.map (·.1)).map cols = lens := by
    rw [hlens, hps, map_map, map_map]; apply map_congr_left; intro d hd
    exact (h d hd).2.trans (length_of_perm_range (h d hd).1).symm
  intro o
  refine ⟨?_, ?_⟩
  · apply perm_range_of_nodup
    · refine (nodup_map_iff_inj_on (nodup_indices lens)).2 ?_
      intro a ha b hb hab
      exact valOf_inj hp2 ha hb (ravel_inj (valOf_mem hp1 ha) (valOf_mem hp1 hb) hab)
    · intro x hx
      obtain ⟨idx, hidx, rfl⟩ := mem_map.1 hx
      rw [kronL_rows, hr]; exact ravel_lt (valOf_mem hp1 hidx)
    · rw [length_map, length_indices, kronL_rows, hr]
  · have hr' : (DP.map fun d => d.1.pick d.2 d.2).map rows = lens := by
      rw [hlens, hps, map_map, map_map]; rfl
    have hc' : (DP.map fun d => d.1.pick d.2 d.2).map cols = lens := by
      rw [hlens, hps, map_map, map_map]; rfl
    apply ext
    · rw [pick_rows, length_map, length_indices, kronL_rows, hr']
    · rw [pick_cols, length_map, length_indices, kronL_cols, hc']
    · intro i j hi hj
      simp only [pick_rows, pick_cols, length_map, length_indices, o] at hi hj
      obtain ⟨idx, hidx, rfl⟩ := mem_ravel_indices hi
      obtain ⟨jdx, hjdx, rfl⟩ := mem_ravel_indices hj
      rw [pick_e (by simpa [length_indices, o] using hi) (by simpa [length_indices, o] using hj)]
      simp only [o]
      rw [getD_map_indices lens _ 0 hidx, getD_map_indices lens _ 0 hjdx]
      have k1 := kronL_e (Ms := DP.map (·.1)) (idx := valOf ps idx) (jdx := valOf ps jdx)
        (by rw [hr]; exact valOf_mem hp1 hidx) (by rw [hc]; exact valOf_mem hp1 hjdx)
      have k2 := kronL_e (Ms := DP.map fun d => d.1.pick d.2 d.2) (idx := idx) (jdx := jdx)
        (by rw [hr']; exact hidx) (by rw [hc']; exact hjdx)
      rw [hr, hc] at k1; rw [hr', hc'] at k2
      rw [k1, k2]
      clear k1 k2 hi hj o hr hc hr' hc' hp1 hp2
      have hi : idx ∈ indices (DP.map fun d => d.2.length) := by rw [hlens, hps, map_map] at hidx; exact hidx
      have hj : jdx ∈ indices (DP.map fun d => d.2.length) := by rw [hlens, hps, map_map] at hjdx; exact hjdx
      rw [hps]
      clear_value lens
      clear hlens hidx hjdx hps
      clear_value ps
      induction DP generalizing idx jdx with
      | nil => simp [prodE]
      | cons d DP ih =>
        rw [map_cons, mem_indices] at hi hj
        cases hi with
        | @cons i n is s h1 h2 =>
          cases hj with
          | @cons j m js t h3 h4 =>
            simp only [map_cons, valOf, zipWith_cons_cons, prodE]
            have := ih (fun d hd => h d (by simp [hd])) is js (mem_indices.2 h2) (mem_indices.2 h4)
            unfold valOf at this
            rw [this, pick_e h1 h3]

/-- Transposing the axes of a Kronecker product. -/
theorem kronL_transpose {Ms : List (DMat R)} (hsq : ∀ M ∈ Ms, M.cols = M.rows) {axes : List ℕ} (hax : AxesOK axes)
    (hl : Ms.length = axes.length) :
    let t := (((NdArr.arange (Ms.map rows).prod).reshape (Ms.map rows)).transpose axes).data
    t ~ range (Ms.map rows).prod ∧
      (kronL Ms).pick t t = kronL (axes.map fun j => Ms.getD j (zero 0 0)) := by
  set s := Ms.map rows with hs
  have hcs : Ms.map cols = s := map_congr_left hsq
  have hsl : s.length = axes.length := by simp [hs, hl]
  set s' := axes.map fun j => s.getD j 0 with hs'
  have ht : (((NdArr.arange s.prod).reshape s).transpose axes).data =
      (indices s').map fun idx => ravel s (unperm axes idx) := by
    rw [arange_reshape, transpose_ofFn _ hax hsl]; rfl
  have hNr : (axes.map fun j => Ms.getD j (zero 0 0)).map rows = s' := by
    rw [map_map, hs']
    apply map_congr_left
    intro j hj
    have hj' := hax.mem.1 hj
    simp only [Function.comp]
    rw [getD_eq_getElem' (by omega), getD_eq_getElem' (by omega)]
    simp [hs]
  have hNc : (axes.map fun j => Ms.getD j (zero 0 0)).map cols = s' := by
    rw [map_map, hs']
    apply map_congr_left
    intro j hj
    have hj' := hax.mem.1 hj
    simp only [Function.comp]
    rw [getD_eq_getElem' (by omega), getD_eq_getElem' (by omega), hsq _ (getElem_mem _)]
    simp [hs]
  have hprod : s'.prod = s.prod := by
    have : s' ~ s := by
      refine (hax.map _).trans ?_
      apply Perm.of_eq
      apply list_ext_getD 0 (by simp [hsl])
      intro j hj
      simp only [length_map, length_range] at hj
      rw [getD_eq_getElem' (by simpa)]; simp
    exact this.prod_eq
  intro t
  have ht' : t = (indices s').map fun idx => ravel s (unperm axes idx) := ht
  rw [ht']
  refine ⟨?_, ?_⟩
  · apply perm_range_of_nodup
    · refine (nodup_map_iff_inj_on (nodup_indices s')).2 ?_
      intro a ha b hb hab
      have h3 := ravel_inj (unperm_mem hax hsl ha) (unperm_mem hax hsl hb) hab
      have la := length_of_mem_indices ha
      have lb := length_of_mem_indices hb
      simp only [hs', length_map] at la lb
      apply list_ext_getD 0 (by omega)
      intro k hk
      rw [← getD_unperm_axes hax (by omega), ← getD_unperm_axes (idx := b) hax (by omega), h3]
    · intro x hx
      obtain ⟨idx, hidx, rfl⟩ := mem_map.1 hx
      exact ravel_lt (unperm_mem hax hsl hidx)
    · rw [length_map, length_indices, hprod]
  · apply ext
    · rw [pick_rows, length_map, length_indices, kronL_rows, hNr]
    · rw [pick_cols, length_map, length_indices, kronL_cols, hNc]
    · intro i j hi hj
      simp only [pick_rows, pick_cols, length_map, length_indices] at hi hj
      obtain ⟨idx, hidx, rfl⟩ := mem_ravel_indices hi
      obtain ⟨jdx, hjdx, rfl⟩ := mem_ravel_indices hj
      rw [pick_e (by simpa [length_indices] using hi) (by simpa [length_indices] using hj)]
      rw [getD_map_indices s' _ 0 hidx, getD_map_indices s' _ 0 hjdx]
      have k1 := kronL_e (Ms := Ms) (idx := unperm axes idx) (jdx := unperm axes jdx)
        (unperm_mem hax hsl hidx) (by rw [hcs]; exact unperm_mem hax hsl hjdx)
      rw [hcs] at k1
      have k2 := kronL_e (Ms := axes.map fun j => Ms.getD j (zero 0 0)) (idx := idx) (jdx := jdx)
        (by rw [hNr]; exact hidx) (by rw [hNc]; exact hjdx)
      rw [hNr, hNc] at k2
      rw [k1, k2]
      have la := length_of_mem_indices hidx
      have lb := length_of_mem_indices hjdx
      simp only [hs', length_map] at la lb
      rw [prodE_unperm hax hl la lb]

/-- A block-diagonal matrix, its blocks being the slices between cumulative sums. -/
theorem bdiag_real_slices (Bs : List (DMat R)) (hsq : ∀ B ∈ Bs, B.cols = B.rows) :
    Real (bdiag Bs) ((range Bs.length).map fun j => (Bs.getD j (zero 0 0), sliceRange (cumsum0 (Bs.map rows)) j)) := by
  induction Bs with
  | nil => exact Real.nil
  | cons B Bs ih =>
    have hB : Real B [(B, range B.rows)] := by
      refine ⟨by simp, hsq B (by simp), ?_, by simp⟩
      intro b hb
      simp only [mem_singleton] at hb
      subst hb
      have := pick_range B
      rwa [hsq B (by simp)] at this
    have := hB.bdiag2 (ih fun B' hB' => hsq B' (by simp [hB']))
    simp only [bdiag, length_cons, range_succ_eq_map, map_cons, map_map, singleton_append] at this ⊢
    convert this using 2
    · congr 1
      rw [← map_cons, sliceRange_cumsum0 _ (by simp)]
      simp
    · apply map_congr_left
      intro j hj
      rw [mem_range] at hj
      simp only [Function.comp, Nat.succ_eq_add_one, getD_cons_succ]
      congr 1
      rw [← map_cons, sliceRange_cumsum0 _ (by simpa), sliceRange_cumsum0 _ (by simpa)]
      simp [add_assoc]

end DMat

section
variable {R : Type*} [CommRing R]
open DMat

theorem evens_odds_axesOK (m : ℕ) : AxesOK ((range m).map (2 * ·) ++ (range m).map (2 * · + 1)) := by
  unfold AxesOK
  apply perm_range_of_nodup
  · rw [nodup_append]
    refine ⟨(nodup_map_iff_inj_on nodup_range).2 (by intro a _ b _ h; simp at h; omega),
      (nodup_map_iff_inj_on nodup_range).2 (by intro a _ b _ h; simp at h; omega), ?_⟩
    intro a ha b hb
    simp only [mem_map, mem_range] at ha hb
    obtain ⟨x, _, rfl⟩ := ha
    obtain ⟨y, _, rfl⟩ := hb
    omega
  · intro x hx
    simp only [mem_append, mem_map, mem_range, length_append, length_map, length_range] at hx ⊢
    rcases hx with ⟨y, h, rfl⟩ | ⟨y, h, rfl⟩ <;> omega
  · simp

/-- One term of an expanded product: factors `(A, c)` meaning `c` copies of the square matrix `A`. -/
abbrev Term (R : Type*) [Zero R] := List (DMat R × ℕ)

theorem getD_pairs {α β} (J : List β) (f g : β → α) (d : α) {k : ℕ} (hk : k < J.length) :
    (J.flatMap fun b => [f b, g b]).getD (2 * k) d = f J[k] ∧
      (J.flatMap fun b => [f b, g b]).getD (2 * k + 1) d = g J[k] := by
  induction J generalizing k with
  | nil => simp at hk
  | cons b J ih =>
    cases k with
    | zero => simp
    | succ k =>
      have := ih (k := k) (by simpa using hk)
      simp only [flatMap_cons, cons_append, nil_append, getElem_cons_succ]
      rw [show 2 * (k + 1) = 2 * k + 1 + 1 by ring]
      simpa using this

theorem mulPerm_mat (J : Term R) (hsq : ∀ a ∈ J, a.1.cols = a.1.rows) :
    let N := (J.map fun a => a.2 * a.1.rows).prod
    mulPerm (J.map fun a => (a.2, a.1.rows)) N ~ range N ∧
    (kronL (J.map fun a => kron (one a.2) a.1)).pick (mulPerm (J.map fun a => (a.2, a.1.rows)) N)
        (mulPerm (J.map fun a => (a.2, a.1.rows)) N) =
      bdiag (replicate (J.map (·.2)).prod (kronL (J.map (·.1)))) := by
  intro N
  have e1 : kronL (J.map fun a => kron (one a.2) a.1) = kronL (J.flatMap fun a => [one a.2, a.1]) := by
    rw [kronL_flatMap]; congr 1; apply map_congr_left; intro a _; simp [kronL, DMat.kron_one]
  set Ms := J.flatMap fun a => [(one a.2 : DMat R), a.1] with hMs
  have hMr : Ms.map rows = (J.map fun a => (a.2, a.1.rows)).flatMap fun cs => [cs.1, cs.2] := by
    rw [hMs, map_flatMap, flatMap_map]; rfl
  have hN : (Ms.map rows).prod = N := by
    rw [hMs, map_flatMap]
    simp only [N]
    clear_value Ms
    clear hMr hMs e1 hsq
    induction J with
    | nil => rfl
    | cons a J ih =>
      simp only at ih
      rw [flatMap_cons, prod_append, ih]; simp
  have hlen : Ms.length = 2 * J.length := by rw [hMs, length_flatMap]; simp; ring
  have key := kronL_transpose (Ms := Ms) (axes := (range J.length).map (2 * ·) ++ (range J.length).map (2 * · + 1))
    (by
      intro M hM
      obtain ⟨a, ha, hM⟩ := mem_flatMap.1 hM
      simp only [mem_cons, not_mem_nil, or_false] at hM
      rcases hM with rfl | rfl
      · rfl
      · exact hsq a ha)
    (evens_odds_axesOK _) (by rw [hlen]; simp; ring)
  simp only at key
  rw [hMr] at key
  rw [show ((J.map fun a => (a.2, a.1.rows)).flatMap fun cs => [cs.1, cs.2]).prod = N by rw [← hMr, hN]] at key
  have hmp : mulPerm (J.map fun a => (a.2, a.1.rows)) N = (((NdArr.arange N).reshape
      ((J.map fun a => (a.2, a.1.rows)).flatMap fun cs => [cs.1, cs.2])).transpose
      ((range J.length).map (2 * ·) ++ (range J.length).map (2 * · + 1))).data := by
    simp [mulPerm]
  rw [hmp, e1]
  refine ⟨key.1, key.2.trans ?_⟩
  rw [bdiag_replicate, map_append, kronL_append, map_map, map_map, ← kronL_ones]
  congr 1
  · congr 1
    apply ext_getElem (by simp)
    intro k h1 h2
    simp only [length_map, length_range] at h1
    simp only [getElem_map, getElem_range, Function.comp]
    exact (getD_pairs J (fun a => (one a.2 : DMat R)) (·.1) _ h1).1
  · congr 1
    apply ext_getElem (by simp)
    intro k h1 h2
    simp only [length_map, length_range] at h1
    simp only [getElem_map, getElem_range, Function.comp]
    exact (getD_pairs J (fun a => (one a.2 : DMat R)) (·.1) _ h1).2

/-- reindexing every block of a block-diagonal matrix -/
theorem eachPerm_mat (ts : List (Term R × List ℕ × DMat R)) (h : ∀ t ∈ ts,
      (∀ a ∈ t.1, a.1.cols = a.1.rows) ∧ t.2.1 ~ range (t.1.map fun a => a.2 * a.1.rows).prod ∧
      (bdiag (replicate (t.1.map (·.2)).prod (kronL (t.1.map (·.1))))).pick t.2.1 t.2.1 = t.2.2) :
    let q := eachPerm 0 (ts.map fun t => (t.1.map fun a => (a.2, a.1.rows), t.2.1))
    let D := bdiag (ts.map fun t => kronL (t.1.map fun a => kron (one a.2) a.1))
    q ~ range D.rows ∧ D.cols = D.rows ∧ D.pick q q = bdiag (ts.map (·.2.2)) := by
  have shift : ∀ (i : ℕ) (l : List (List (ℕ × ℕ) × List ℕ)), eachPerm i l = (eachPerm 0 l).map (i + ·) := by
    have : ∀ (i j : ℕ) (l : List (List (ℕ × ℕ) × List ℕ)), eachPerm (i + j) l = (eachPerm j l).map (i + ·) := by
      intro i j l
      induction l generalizing j with
      | nil => rfl
      | cons a l ih =>
        simp only [eachPerm, map_append, map_map, add_assoc, ih]
        rfl
    intro i l; simpa using this i 0 l
  intro q D
  have key : ∀ t ∈ ts, Real (kronL (t.1.map fun a => kron (one a.2) a.1))
      [(t.2.2, gather (mulPerm (t.1.map fun a => (a.2, a.1.rows)) t.2.1.length) t.2.1)] := by
    intro t ht
    obtain ⟨h1, h2, h3⟩ := h t ht
    have hl := length_of_perm_range h2
    obtain ⟨m1, m2⟩ := mulPerm_mat t.1 h1
    have hr : (kronL (t.1.map fun a => kron (one a.2) a.1)).rows = (t.1.map fun a => a.2 * a.1.rows).prod := by
      rw [kronL_rows, map_map]; rfl
    have hc : (kronL (t.1.map fun a => kron (one a.2) a.1)).cols = (t.1.map fun a => a.2 * a.1.rows).prod := by
      rw [kronL_cols, map_map]; congr 1; apply map_congr_left; intro a ha; simp [h1 a ha]
    refine ⟨?_, by rw [hr, hc], ?_, by simp⟩
    · simp only [flatMap_cons, flatMap_nil, append_nil]
      rw [hr, hl]; exact gather_perm m1 h2
    · intro b hb
      simp only [mem_singleton] at hb
      subst hb
      simp only
      rw [hl, ← pick_pick _ (by intro x hx; rw [length_of_perm_range m1]; exact lt_of_perm_range h2 hx)
        (by intro x hx; rw [length_of_perm_range m1]; exact lt_of_perm_range h2 hx), m2, h3]
  have main : ∀ ts : List (Term R × List ℕ × DMat R), (∀ t ∈ ts, Real (kronL (t.1.map fun a => kron (one a.2) a.1))
      [(t.2.2, gather (mulPerm (t.1.map fun a => (a.2, a.1.rows)) t.2.1.length) t.2.1)]) →
      ∃ L : List (DMat R × List ℕ), L.map (·.1) = ts.map (·.2.2) ∧
        L.flatMap (·.2) = eachPerm 0 (ts.map fun t => (t.1.map fun a => (a.2, a.1.rows), t.2.1)) ∧
        Real (bdiag (ts.map fun t => kronL (t.1.map fun a => kron (one a.2) a.1))) L := by
    intro ts
    induction ts with
    | nil => intro _; exact ⟨[], rfl, rfl, Real.nil⟩
    | cons t ts ih =>
      intro h
      obtain ⟨L, h1, h2, h3⟩ := ih fun t ht => h t (by simp [ht])
      have ht := h t (by simp)
      refine ⟨_, ?_, ?_, ht.bdiag2 h3⟩
      · simp only [map_cons, map_map, ← h1, singleton_append]
        rfl
      · have hrow : (kronL (t.1.map fun a => kron (one a.2) a.1)).rows = t.2.1.length := by
          have := ht.perm
          simp only [flatMap_cons, flatMap_nil, append_nil] at this
          have := length_of_perm_range this
          rw [length_gather] at this; exact this.symm
        simp only [flatMap_append, flatMap_cons, flatMap_nil, append_nil, map_cons, eachPerm, flatMap_map, zero_add]
        rw [shift, ← h2, map_flatMap, hrow]
        simp
  obtain ⟨L', h1, h2, h3⟩ := main ts key
  refine ⟨?_, h3.sq, ?_⟩
  · have := h3.perm; rw [h2] at this; exact this
  · have := h3.pick_eq; rw [h2, h1] at this; exact this

/-- An operand of `distribute_product`: matrix, ordering, and the items `(A, c)` of its canonical form. -/
structure DistArg (R : Type*) [Zero R] where
  D : DMat R
  p : List ℕ
  items : Term R

/-- The operand's matrix is the block-diagonal matrix of its items, in the order `p`. -/
structure DistArg.OK (a : DistArg R) : Prop where
  perm : a.p ~ range a.D.rows
  sq : a.D.cols = a.D.rows
  pick : a.D.pick a.p a.p = bdiag (a.items.map fun it => bdiag (replicate it.2 it.1))
  mat : ∀ it ∈ a.items, it.1.cols = it.1.rows

/-- **Distributing a product over sums**: `total_perm` reorders the Kronecker product of the operands into the
block-diagonal matrix of the canonical forms of the terms. -/
theorem distPerm_mat (as : List (DistArg R)) (h : ∀ a ∈ as, a.OK) (ts : List (Term R × List ℕ × DMat R))
    (hts : ts.map (·.1) = cart (as.map DistArg.items))
    (hcp : ∀ t ∈ ts, t.2.1 ~ range (t.1.map fun a => a.2 * a.1.rows).prod ∧
      (bdiag (replicate (t.1.map (·.2)).prod (kronL (t.1.map (·.1))))).pick t.2.1 t.2.1 = t.2.2) :
    let K := kronL (as.map DistArg.D)
    let q := distPerm (as.map DistArg.p) (as.map fun a => a.items.map fun it => (it.2, it.1.rows)) (ts.map (·.2.1))
    q ~ range K.rows ∧ K.cols = K.rows ∧ K.pick q q = bdiag (ts.map (·.2.2)) := by
  intro K q
  -- step 1: order
  have hDP : ∀ d ∈ as.map fun a => (a.D, a.p), d.2 ~ range d.1.rows ∧ d.1.cols = d.1.rows := by
    intro d hd; obtain ⟨a, ha, rfl⟩ := mem_map.1 hd; exact ⟨(h a ha).perm, (h a ha).sq⟩
  obtain ⟨o1, o2⟩ := kronL_pick_valOf (as.map fun a => (a.D, a.p)) hDP
  simp only [map_map, Function.comp_def] at o1 o2
  have hp1 : ∀ p ∈ as.map DistArg.p, ∀ x ∈ p, x < p.length := by
    intro p hp x hx; obtain ⟨a, ha, rfl⟩ := mem_map.1 hp
    rw [length_of_perm_range (h a ha).perm]; exact lt_of_perm_range (h a ha).perm hx
  have ho := swapOrder_eq (as.map DistArg.p) hp1
  set o := (takeAxesSwap 0 (as.map DistArg.p) ((NdArr.arange ((as.map DistArg.p).map length).prod).reshape
    ((as.map DistArg.p).map length))).data with hodef
  simp only [map_map, Function.comp_def] at ho
  rw [← ho] at o1 o2
  -- step 2: blocks
  obtain ⟨DL, hdl⟩ : ∃ DL, DL = as.map fun a => (bdiag (a.items.map fun it => bdiag (replicate it.2 it.1)),
    (range a.items.length).map fun j => ((a.items.map fun it => bdiag (replicate it.2 it.1)).getD j (zero 0 0),
      sliceRange (cumsum0 (a.items.map fun it => it.2 * it.1.rows)) j)) := ⟨_, rfl⟩
  have hDL : ∀ d ∈ DL, Real d.1 d.2 := by
    intro d hd
    rw [hdl] at hd
    obtain ⟨a, ha, rfl⟩ := mem_map.1 hd
    have := bdiag_real_slices (a.items.map fun it => bdiag (replicate it.2 it.1)) (by
      intro B hB; obtain ⟨it, hit, rfl⟩ := mem_map.1 hB
      rw [bdiag_replicate]; simp [(h a ha).mat it hit])
    simp only [length_map, map_map] at this
    convert this using 2
    funext j
    congr 2; congr 1
    apply map_congr_left; intro it _
    simp [bdiag_replicate]
  have hK := Real.kronL DL hDL
  have hsizes : ∀ a ∈ as, (bdiag (a.items.map fun it => bdiag (replicate it.2 it.1))).rows =
      (a.items.map fun it => it.2 * it.1.rows).sum := by
    intro a _
    rw [bdiag_rows, map_map]; congr 1; apply map_congr_left; intro it _; simp [bdiag_replicate]
  set sizes := as.map fun a => a.items.map fun it => it.2 * it.1.rows with hsz
  have hshape : DL.map (fun d => d.1.rows) = (sizes.map cumsum0).map fun c => c.getLastD 0 := by
    simp only [hdl, map_map, hsz]
    apply map_congr_left
    intro a ha
    simp only [Function.comp, cumsum0_getLastD]
    exact hsizes a ha
  have hpos : (cart (DL.map (·.2))).map (fun b => b.map (·.2)) =
      (cart (sizes.map fun s => range s.length)).map (zipWith sliceRange (sizes.map cumsum0)) := by
    rw [← cart_map, ← cart_zipWith sliceRange _ _ (by simp)]
    congr 1
    simp only [hdl, map_map, hsz, zipWith_map, zipWith_self]
    apply map_congr_left
    intro a _
    simp [Function.comp_def]
  have hBP : ((cart (DL.map (·.2))).map fun b => (kronL (b.map (·.1)), slicePos (DL.map fun d => d.1.rows) (b.map (·.2)))).flatMap (·.2)
      = blockPos ((sizes.map cumsum0).map fun c => c.getLastD 0) (sizes.map cumsum0) (cart (sizes.map fun s => range s.length)) := by
    rw [flatMap_map]
    simp only
    have : ((cart (DL.map (·.2))).flatMap fun b => slicePos (DL.map fun d => d.1.rows) (b.map (·.2))) =
        ((cart (DL.map (·.2))).map (fun b => b.map (·.2))).flatMap fun r => slicePos (DL.map fun d => d.1.rows) r := by
      rw [flatMap_map]
    rw [this, hpos, flatMap_map, hshape]
    rfl
  have hmats : (cart (DL.map (·.2))).map (fun b => kronL (b.map (·.1))) =
      (cart (as.map DistArg.items)).map fun J => kronL (J.map fun a => kron (one a.2) a.1) := by
    have e1 : (cart (DL.map (·.2))).map (fun b => kronL (b.map (·.1))) =
        ((cart (DL.map (·.2))).map (map (·.1))).map kronL := by
      generalize cart (DL.map (·.2)) = Z
      rw [map_map]; rfl
    have e2 : (cart (as.map DistArg.items)).map (fun J => kronL (J.map fun a => kron (one a.2) a.1)) =
        ((cart (as.map DistArg.items)).map (map fun a => kron (one a.2) a.1)).map kronL := by rw [map_map]; rfl
    rw [e1, e2, ← cart_map, ← cart_map]
    congr 2
    simp only [hdl, map_map]
    apply map_congr_left
    intro a _
    simp only [Function.comp_def]
    apply ext_getElem (by simp)
    intro k h1 h2
    simp only [length_map, length_range] at h1
    simp only [map_map, getElem_map, getElem_range, Function.comp]
    rw [getD_eq_getElem' (by simpa)]
    simp [bdiag_replicate]
  have hKX : kronL (DL.map (·.1)) = K.pick o o := by
    rw [show K = kronL (as.map fun a => a.D) from rfl, o2]
    simp only [hdl, map_map]
    congr 1
    apply map_congr_left
    intro a ha
    simp only [Function.comp]
    rw [(h a ha).pick]
  have hKr : (kronL (DL.map (·.1))).rows = K.rows := by
    rw [hKX, pick_rows, length_of_perm_range o1]
  have hperm := hK.perm
  rw [hBP] at hperm
  have hshapeprod : (kronL (DL.map (·.1))).rows = ((sizes.map cumsum0).map fun c => c.getLastD 0).prod := by
    rw [kronL_rows, map_map, ← hshape]; rfl
  have hrp := repPermutation_eq sizes (hshapeprod ▸ hperm)
  have hpick := hK.pick_eq
  rw [hBP, ← hrp, map_map] at hpick
  rw [← hrp] at hperm
  simp only [Function.comp_def] at hpick
  rw [hmats, ← hts, map_map] at hpick
  -- step 3: terms
  have hterm : ∀ t ∈ ts, (∀ a ∈ t.1, a.1.cols = a.1.rows) := by
    intro t ht a ha
    have : t.1 ∈ cart (as.map DistArg.items) := by rw [← hts]; exact mem_map_of_mem ht
    have gen : ∀ (ls : List (Term R)) (J : Term R), J ∈ cart ls → ∀ a ∈ J, ∃ l ∈ ls, a ∈ l := by
      intro ls
      induction ls with
      | nil => intro J hJ a ha; simp [cart] at hJ; subst hJ; simp at ha
      | cons l ls ih =>
        intro J hJ a ha
        simp only [cart, mem_flatMap, mem_map] at hJ
        obtain ⟨x, hx, J', hJ', rfl⟩ := hJ
        rcases mem_cons.1 ha with rfl | ha
        · exact ⟨l, by simp, hx⟩
        · obtain ⟨l', h1, h2⟩ := ih J' hJ' a ha
          exact ⟨l', by simp [h1], h2⟩
    obtain ⟨l, hl, hal⟩ := gen _ _ this a ha
    obtain ⟨ar, har, rfl⟩ := mem_map.1 hl
    exact (h ar har).mat a hal
  obtain ⟨q1, q2, q3⟩ := eachPerm_mat ts fun t ht => ⟨hterm t ht, (hcp t ht).1, (hcp t ht).2⟩
  simp only [Function.comp_def] at hpick
  set each := eachPerm 0 (ts.map fun t => (t.1.map fun a => (a.2, a.1.rows), t.2.1)) with heach
  set bp := repPermutation sizes with hbp
  have hq : q = gather o (gather bp each) := by
    simp only [q, distPerm]
    congr 2
    · congr 1
      simp only [map_map, hsz]
      apply map_congr_left
      intro a _
      simp
    · rw [heach]
      congr 1
      have : cart (as.map fun a => a.items.map fun it => (it.2, it.1.rows)) =
          ts.map fun t => t.1.map fun a => (a.2, a.1.rows) := by
        have := cart_map (fun it : DMat R × ℕ => (it.2, it.1.rows)) (as.map DistArg.items)
        rw [map_map] at this
        rw [show (as.map fun a => a.items.map fun it => (it.2, it.1.rows)) =
          as.map (map (fun it : DMat R × ℕ => (it.2, it.1.rows)) ∘ DistArg.items) from rfl, this, ← hts, map_map]
        rfl
      rw [this, zip_map']
  have hbprows : (bdiag (ts.map fun t => kronL (t.1.map fun a => kron (one a.2) a.1))).rows = K.rows := by
    rw [← hpick, pick_rows, length_of_perm_range hperm, hKr]
  rw [hbprows] at q1
  rw [hKr] at hperm
  have hg : gather bp each ~ range K.rows := gather_perm hperm q1
  refine ⟨?_, ?_, ?_⟩
  · rw [hq]; exact gather_perm o1 hg
  · rw [show K = kronL (as.map fun a => a.D) from rfl, kronL_cols, kronL_rows, map_map, map_map]
    congr 1
    apply map_congr_left; intro a ha; exact (h a ha).sq
  · have ho1 : ∀ x ∈ gather bp each, x < o.length := by
      intro x hx; rw [length_of_perm_range o1]; exact lt_of_perm_range hg hx
    have he1 : ∀ x ∈ each, x < bp.length := by
      intro x hx; rw [length_of_perm_range hperm]; exact lt_of_perm_range q1 hx
    rw [hq, ← pick_pick K ho1 ho1, ← hKX, ← pick_pick _ he1 he1, hpick, q3]

end
end Verif
