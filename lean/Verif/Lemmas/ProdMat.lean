import Verif.Lemmas.ProdCanon

namespace Verif
open List NdArr

theorem perm_range_of_nodup {l : List ℕ} {n : ℕ} (h1 : l.Nodup) (h2 : ∀ x ∈ l, x < n) (h3 : l.length = n) :
    l ~ range n :=
  (subperm_of_subset h1 (fun x hx => mem_range.2 (h2 x hx))).perm_of_length_le (by simp [h3])

/-- multi-index of groups of axes, flattened group by group -/
def grp : List (List ℕ) → List ℕ → List ℕ
  | [], _ => []
  | s :: ss, idx => ravel s (idx.take s.length) :: grp ss (idx.drop s.length)

theorem mem_indices_flatten {s : List ℕ} {ss : List (List ℕ)} {idx : List ℕ}
    (h : idx ∈ indices (s :: ss).flatten) :
    idx.take s.length ∈ indices s ∧ idx.drop s.length ∈ indices ss.flatten := by
  rw [flatten_cons, indices_append] at h
  obtain ⟨a, ha, h⟩ := mem_flatMap.1 h
  obtain ⟨b, hb, rfl⟩ := mem_map.1 h
  have := length_of_mem_indices ha
  rw [← this, take_left, drop_left]
  exact ⟨ha, hb⟩

theorem grp_mem {ss : List (List ℕ)} {idx : List ℕ} (h : idx ∈ indices ss.flatten) :
    grp ss idx ∈ indices (ss.map List.prod) := by
  induction ss generalizing idx with
  | nil => simp [grp, indices]
  | cons s ss ih =>
    obtain ⟨h1, h2⟩ := mem_indices_flatten h
    have := ih h2
    rw [mem_indices] at this ⊢
    exact .cons (ravel_lt h1) this

theorem ravel_grp {ss : List (List ℕ)} {idx : List ℕ} (h : idx ∈ indices ss.flatten) :
    ravel ss.flatten idx = ravel (ss.map List.prod) (grp ss idx) := by
  induction ss generalizing idx with
  | nil => simp [grp, ravel]
  | cons s ss ih =>
    obtain ⟨h1, h2⟩ := mem_indices_flatten h
    simp only [flatten_cons, map_cons, grp, ravel]
    rw [← ih h2, ← List.prod_flatten]
    conv_lhs => rw [← take_append_drop s.length idx]
    rw [ravel_append h1]

theorem grp_inj {ss : List (List ℕ)} {a b : List ℕ} (ha : a ∈ indices ss.flatten) (hb : b ∈ indices ss.flatten)
    (h : grp ss a = grp ss b) : a = b := by
  apply ravel_inj ha hb
  rw [ravel_grp ha, ravel_grp hb, h]

/-- flattened entry of the reindexed array -/
def valOf (ps : List (List ℕ)) (g : List ℕ) : List ℕ := zipWith (fun p x => p.getD x 0) ps g

theorem valOf_mem {ps : List (List ℕ)} {g : List ℕ} (hp : ∀ p ∈ ps, ∀ x ∈ p, x < p.length)
    (hg : g ∈ indices (ps.map List.length)) : valOf ps g ∈ indices (ps.map List.length) := by
  induction ps generalizing g with
  | nil => simp [valOf, indices]
  | cons p ps ih =>
    rw [map_cons, mem_indices] at hg
    cases hg with
    | @cons x n g s h1 h2 =>
      have := ih (fun q hq => hp q (by simp [hq])) (mem_indices.2 h2)
      rw [mem_indices] at this
      simp only [valOf, zipWith_cons_cons, map_cons, mem_indices]
      exact .cons (hp p (by simp) _ (getD_mem_of_lt h1)) this

theorem valOf_inj {ps : List (List ℕ)} {g g' : List ℕ} (hp : ∀ p ∈ ps, p.Nodup)
    (hg : g ∈ indices (ps.map List.length)) (hg' : g' ∈ indices (ps.map List.length))
    (h : valOf ps g = valOf ps g') : g = g' := by
  induction ps generalizing g g' with
  | nil => simp [indices] at hg hg'; rw [hg, hg']
  | cons p ps ih =>
    rw [map_cons, mem_indices] at hg hg'
    cases hg with
    | @cons x n g s h1 h2 =>
      cases hg' with
      | @cons y m g' t h3 h4 =>
        simp only [valOf, zipWith_cons_cons, cons.injEq] at h
        rw [getD_inj (hp p (by simp)) h1 h3 h.1,
          ih (fun q hq => hp q (by simp [hq])) (mem_indices.2 h2) (mem_indices.2 h4) h.2]

variable {K : Type*} [DecidableEq K] {size : K → ℕ} {R : Type*} [CommRing R]

/-- An operand of a product: its counter, its ordering and the matrix it stands for. -/
structure ProdArg (K R : Type*) [Zero R] where
  c : Counter K
  p : List ℕ
  D : DMat R

/-- The operand's matrix is the Kronecker product of its counter, in the order `p`. -/
structure ProdArg.OK (size : K → ℕ) (mat : K → DMat R) (a : ProdArg K R) : Prop where
  perm : a.p ~ range (a.c.prodSize size)
  sq : a.D.IsSq (a.c.prodSize size)
  pick : a.D.pick a.p a.p = DMat.kronL (a.c.expand.map mat)
  mat : ∀ k ∈ a.c.keys, (mat k).IsSq (size k)
  nodup : a.c.keys.Nodup

omit [DecidableEq K] in
theorem prod_map_expand (c : Counter K) : (c.expand.map size).prod = c.prodSize size := by
  induction c with
  | nil => rfl
  | cons kc c ih =>
    simp only [Counter.expand, flatMap_cons, map_append, prod_append, Counter.prodSize, map_cons, prod_cons] at ih ⊢
    rw [ih]; simp

/-- axis sizes of an operand -/
def ProdArg.s (size : K → ℕ) (a : ProdArg K R) : List ℕ := a.c.expand.map size

omit [DecidableEq K] in
theorem ProdArg.OK.rows {mat : K → DMat R} {a : ProdArg K R} (h : a.OK size mat) :
    (a.c.expand.map mat).map DMat.rows = a.s size := by
  rw [map_map, s]
  apply map_congr_left
  intro k hk; exact (h.mat k (Counter.mem_expand hk)).1

omit [DecidableEq K] in
theorem ProdArg.OK.cols {mat : K → DMat R} {a : ProdArg K R} (h : a.OK size mat) :
    (a.c.expand.map mat).map DMat.cols = a.s size := by
  rw [map_map, s]
  apply map_congr_left
  intro k hk; exact (h.mat k (Counter.mem_expand hk)).2

omit [DecidableEq K] in
theorem prodE_args {mat : K → DMat R} (as : List (ProdArg K R)) (h : ∀ a ∈ as, a.OK size mat) {idx jdx : List ℕ}
    (hi : idx ∈ indices (as.map (ProdArg.s size)).flatten) (hj : jdx ∈ indices (as.map (ProdArg.s size)).flatten) :
    prodE (as.map ProdArg.D) (valOf (as.map ProdArg.p) (grp (as.map (ProdArg.s size)) idx))
      (valOf (as.map ProdArg.p) (grp (as.map (ProdArg.s size)) jdx)) =
    prodE (as.flatMap fun a => a.c.expand.map mat) idx jdx := by
  induction as generalizing idx jdx with
  | nil => simp [prodE]
  | cons a as ih =>
    have ha := h a (by simp)
    rw [map_cons] at hi hj
    obtain ⟨i1, i2⟩ := mem_indices_flatten hi
    obtain ⟨j1, j2⟩ := mem_indices_flatten hj
    simp only [map_cons, grp, valOf, zipWith_cons_cons, prodE, flatMap_cons]
    have := ih (fun b hb => h b (by simp [hb])) i2 j2
    simp only [valOf] at this
    rw [this]
    conv_rhs => rw [← take_append_drop (a.s size).length idx, ← take_append_drop (a.s size).length jdx]
    have l1 := length_of_mem_indices i1
    have l2 := length_of_mem_indices j1
    have hs : (a.s size).length = (a.c.expand.map mat).length := by simp [ProdArg.s]
    rw [prodE_append (by rw [l1, hs]) (by rw [l2, hs])]
    congr 1
    have hi1 : idx.take (a.s size).length ∈ indices ((a.c.expand.map mat).map DMat.rows) := by rw [ha.rows]; exact i1
    have hj1 : jdx.take (a.s size).length ∈ indices ((a.c.expand.map mat).map DMat.cols) := by rw [ha.cols]; exact j1
    rw [← DMat.kronL_e hi1 hj1, ha.rows, ha.cols, ← ha.pick]
    have hn : (a.s size).prod = a.c.prodSize size := prod_map_expand a.c
    have hl := length_of_perm_range ha.perm
    rw [DMat.pick_e (by rw [hl, ← hn]; exact ravel_lt i1) (by rw [hl, ← hn]; exact ravel_lt j1)]

/-- the sizes along the axes of the canonical product -/
theorem prodCanon_shape {u : List K} (hu : u.Nodup) (cs : List (Counter K)) (hc : ∀ c ∈ cs, c.keys.Nodup)
    (h : ∀ c ∈ cs, ∀ k ∈ c.keys, k ∈ u) {β : Type*} (f : K → β) (d : β) :
    (prodMerge cs (axisIds 0 cs) u).1.expand.map f =
      (prodMerge cs (axisIds 0 cs) u).2.map fun j => ((allKeys cs).map f).getD j d := by
  rw [prodMerge_expand u cs hc, prodMerge_axes u cs hc, map_map, map_map]
  exact labAxes_fst_eq u hu cs h f d

theorem prodCanon_axesOK {u : List K} (hu : u.Nodup) (cs : List (Counter K)) (hc : ∀ c ∈ cs, c.keys.Nodup)
    (h : ∀ c ∈ cs, ∀ k ∈ c.keys, k ∈ u) :
    (prodMerge cs (axisIds 0 cs) u).2 ~ range (allKeys cs).length := by
  rw [prodMerge_axes u cs hc]
  have := (labAxes_perm u hu cs h).map (·.2)
  rwa [zipIdx_map_snd, ← range_eq_range'] at this

/-- **Product of representations**: if every operand is the Kronecker product of its counter in the
order `p`, then the merged counter and ordering describe the Kronecker product of the operands. -/
theorem prodCanon_mat {u : List K} (hu : u.Nodup) {mat : K → DMat R} (as : List (ProdArg K R))
    (h : ∀ a ∈ as, a.OK size mat) (hku : ∀ a ∈ as, ∀ k ∈ a.c.keys, k ∈ u) :
    let r := prodCanon size u (as.map ProdArg.c) (as.map ProdArg.p)
    r.2 ~ range (r.1.prodSize size) ∧
    (DMat.kronL (as.map ProdArg.D)).IsSq (r.1.prodSize size) ∧
    (DMat.kronL (as.map ProdArg.D)).pick r.2 r.2 = DMat.kronL (r.1.expand.map mat) := by
  have hc : ∀ c ∈ as.map ProdArg.c, c.keys.Nodup := by
    intro c hc; obtain ⟨a, ha, rfl⟩ := mem_map.1 hc; exact (h a ha).nodup
  have hcu : ∀ c ∈ as.map ProdArg.c, ∀ k ∈ c.keys, k ∈ u := by
    intro c hc; obtain ⟨a, ha, rfl⟩ := mem_map.1 hc; exact hku a ha
  set cs := as.map ProdArg.c with hcs
  set ps := as.map ProdArg.p with hps
  set ss := as.map (ProdArg.s size) with hss
  set lens := ps.map List.length with hlens
  set M := prodMerge cs (axisIds 0 cs) u with hM
  have hax0 : M.2 ~ range (allKeys cs).length := prodCanon_axesOK hu cs hc hcu
  have hax : AxesOK M.2 := by unfold AxesOK; rw [length_of_perm_range hax0]; exact hax0
  have hkl : M.2.length = (allKeys cs).length := length_of_perm_range hax0
  have hS : (cs.flatMap fun c => c.expand.map size) = ss.flatten := by
    rw [hcs, hss, flatMap_map]; rfl
  have hS' : (allKeys cs).map size = ss.flatten := by
    rw [← hS, allKeys, map_flatMap]
  have hSl : ss.flatten.length = M.2.length := by rw [← hS', length_map, hkl]
  have hlens' : lens = ss.map List.prod := by
    rw [hlens, hps, hss, map_map, map_map]
    apply map_congr_left
    intro a ha
    simp only [Function.comp]
    rw [length_of_perm_range (h a ha).perm, ProdArg.s, prod_map_expand]
  -- the reindexed array
  have hp1 : ∀ p ∈ ps, ∀ x ∈ p, x < p.length := by
    intro p hp x hx; obtain ⟨a, ha, rfl⟩ := mem_map.1 hp
    rw [length_of_perm_range (h a ha).perm]; exact lt_of_perm_range (h a ha).perm hx
  have hp2 : ∀ p ∈ ps, p.Nodup := by
    intro p hp; obtain ⟨a, ha, rfl⟩ := mem_map.1 hp; exact nodup_of_perm_range (h a ha).perm
  have horder : takeAxes 0 ps ((NdArr.arange lens.prod).reshape lens) =
      ofFn lens fun idx => ravel lens (valOf ps idx) := by
    have e : (NdArr.arange lens.prod).reshape lens = ofFn lens (ravel lens) := by
      simp only [NdArr.arange, NdArr.reshape, NdArr.ofFn, map_ravel_indices]
    rw [e, takeAxes_ofFn ps lens 0 _ (by simp [hlens])]
    · apply NdArr.ofFn_congr
      intro idx _
      simp [applyFrom, valOf]
    · intro k hk
      have hk' : k < lens.length := by simpa [hlens]
      rw [getD_eq_getElem' hk, zero_add, getD_eq_getElem' hk']
      simp only [hlens, getElem_map]
      exact ⟨trivial, hp1 _ (getElem_mem hk)⟩
  -- entries of the expanded array
  let Fv : List ℕ → ℕ := fun idx => ravel lens (valOf ps (grp ss idx))
  have hget : ∀ idx ∈ indices ss.flatten,
      ((takeAxes 0 ps ((NdArr.arange lens.prod).reshape lens)).reshape ss.flatten).get idx = Fv idx := by
    intro idx hidx
    rw [horder]
    simp only [NdArr.get, NdArr.reshape, NdArr.ofFn]
    rw [ravel_grp hidx, ← hlens']
    exact getD_map_indices lens _ 0 (by rw [hlens']; exact grp_mem hidx)
  set s' := M.2.map fun j => ss.flatten.getD j 0 with hs'
  have hs'e : s' = M.1.expand.map size := by
    rw [hs', ← hS']; exact (prodCanon_shape hu cs hc hcu size 0).symm
  have hfinal : (prodCanon size u cs ps).2 = (indices s').map fun idx => Fv (unperm M.2 idx) := by
    simp only [prodCanon]
    rw [← hlens, ← hM, hS]
    simp only [NdArr.transpose, NdArr.ofFn]
    rw [show (NdArr.reshape (takeAxes 0 ps ((NdArr.arange lens.prod).reshape lens)) ss.flatten).shape = ss.flatten from rfl]
    apply map_congr_left
    intro idx hidx
    exact hget _ (unperm_mem hax hSl hidx)
  have hcnt : (prodCanon size u cs ps).1 = M.1 := rfl
  have hprod : s'.prod = M.1.prodSize size := by rw [hs'e, prod_map_expand]
  have hprodS : ss.flatten.prod = s'.prod := by
    have : s' ~ ss.flatten := by
      refine (hax.map _).trans ?_
      rw [← hSl]
      apply Perm.of_eq
      apply list_ext_getD 0 (by simp)
      intro j hj
      rw [getD_eq_getElem' hj]; simp
    exact this.prod_eq.symm
  have hlp : lens.prod = s'.prod := by rw [← hprodS, hlens', ← List.prod_flatten]
  have hDrows : (as.map ProdArg.D).map DMat.rows = lens := by
    rw [hlens, hps, map_map, map_map]
    apply map_congr_left
    intro a ha
    simp only [Function.comp]
    rw [length_of_perm_range (h a ha).perm, (h a ha).sq.1]
  have hDcols : (as.map ProdArg.D).map DMat.cols = lens := by
    rw [hlens, hps, map_map, map_map]
    apply map_congr_left
    intro a ha
    simp only [Function.comp]
    rw [length_of_perm_range (h a ha).perm, (h a ha).sq.2]
  have hvm : ∀ idx ∈ indices ss.flatten, valOf ps (grp ss idx) ∈ indices lens := by
    intro idx hidx
    exact valOf_mem hp1 (by rw [← hlens, hlens']; exact grp_mem hidx)
  simp only
  rw [hcnt, hfinal]
  refine ⟨?_, ?_, ?_⟩
  · apply perm_range_of_nodup
    · refine (nodup_map_iff_inj_on (nodup_indices s')).2 ?_
      intro a ha b hb hab
      have ha' := unperm_mem hax hSl ha
      have hb' := unperm_mem hax hSl hb
      have h1 := ravel_inj (hvm _ ha') (hvm _ hb') hab
      have h2 := valOf_inj hp2 (by rw [← hlens, hlens']; exact grp_mem ha') (by rw [← hlens, hlens']; exact grp_mem hb') h1
      have h3 := grp_inj ha' hb' h2
      have la := length_of_mem_indices ha
      have lb := length_of_mem_indices hb
      simp only [hs', length_map] at la lb
      apply list_ext_getD 0 (by omega)
      intro k hk
      rw [← getD_unperm_axes hax (by omega), ← getD_unperm_axes (idx := b) hax (by omega), h3]
    · intro x hx
      obtain ⟨idx, hidx, rfl⟩ := mem_map.1 hx
      rw [← hprod, ← hlp]
      exact ravel_lt (hvm _ (unperm_mem hax hSl hidx))
    · rw [length_map, length_indices, hprod]
  · constructor
    · rw [DMat.kronL_rows, hDrows, hlp, hprod]
    · rw [DMat.kronL_cols, hDcols, hlp, hprod]
  · have hmats : M.1.expand.map mat = M.2.map fun j => (as.flatMap fun a => a.c.expand.map mat).getD j (DMat.zero 0 0) := by
      rw [prodCanon_shape hu cs hc hcu mat (DMat.zero 0 0), allKeys, map_flatMap, hcs, flatMap_map]
    have hMr : (M.1.expand.map mat).map DMat.rows = s' := by
      rw [hs'e, map_map]
      apply map_congr_left
      intro k hk
      rw [prodMerge_expand u cs hc] at hk
      obtain ⟨p, hp, rfl⟩ := mem_map.1 hk
      have := (labAxes_perm u hu cs hcu).mem_iff.1 hp
      have hm : p.1 ∈ allKeys cs := by
        have := mem_map_of_mem (f := Prod.fst) this
        rwa [zipIdx_map_fst] at this
      obtain ⟨c, hc', hk'⟩ := mem_flatMap.1 hm
      obtain ⟨a, ha, rfl⟩ := mem_map.1 hc'
      exact ((h a ha).mat _ (Counter.mem_expand hk')).1
    have hMc : (M.1.expand.map mat).map DMat.cols = s' := by
      rw [hs'e, map_map]
      apply map_congr_left
      intro k hk
      rw [prodMerge_expand u cs hc] at hk
      obtain ⟨p, hp, rfl⟩ := mem_map.1 hk
      have := (labAxes_perm u hu cs hcu).mem_iff.1 hp
      have hm : p.1 ∈ allKeys cs := by
        have := mem_map_of_mem (f := Prod.fst) this
        rwa [zipIdx_map_fst] at this
      obtain ⟨c, hc', hk'⟩ := mem_flatMap.1 hm
      obtain ⟨a, ha, rfl⟩ := mem_map.1 hc'
      exact ((h a ha).mat _ (Counter.mem_expand hk')).2
    apply DMat.ext
    · rw [DMat.pick_rows, length_map, length_indices, DMat.kronL_rows, hMr]
    · rw [DMat.pick_cols, length_map, length_indices, DMat.kronL_cols, hMc]
    · intro i j hi hj
      simp only [DMat.pick_rows, DMat.pick_cols, length_map, length_indices] at hi hj
      have e : ∀ i, i < s'.prod → ∃ idx ∈ indices s', ravel s' idx = i := by
        intro i hi
        have : i ∈ (indices s').map (ravel s') := by rw [map_ravel_indices]; simpa
        obtain ⟨idx, h1, h2⟩ := mem_map.1 this
        exact ⟨idx, h1, h2⟩
      obtain ⟨idx, hidx, rfl⟩ := e i hi
      obtain ⟨jdx, hjdx, rfl⟩ := e j hj
      rw [DMat.pick_e (by simpa [length_indices] using hi) (by simpa [length_indices] using hj)]
      rw [getD_map_indices s' _ 0 hidx, getD_map_indices s' _ 0 hjdx]
      have hi' := unperm_mem hax hSl hidx
      have hj' := unperm_mem hax hSl hjdx
      have k1 := DMat.kronL_e (Ms := as.map ProdArg.D) (idx := valOf ps (grp ss (unperm M.2 idx)))
        (jdx := valOf ps (grp ss (unperm M.2 jdx))) (by rw [hDrows]; exact hvm _ hi') (by rw [hDcols]; exact hvm _ hj')
      rw [hDrows, hDcols] at k1
      have k2 := DMat.kronL_e (Ms := M.1.expand.map mat) (idx := idx) (jdx := jdx) (by rw [hMr]; exact hidx)
        (by rw [hMc]; exact hjdx)
      rw [hMr, hMc] at k2
      rw [k2, k1, prodE_args as h hi' hj', hmats]
      have la := length_of_mem_indices hidx
      have lb := length_of_mem_indices hjdx
      simp only [hs', length_map] at la lb
      rw [prodE_unperm hax ?_ la lb]
      rw [← hSl, ← hS, hcs, flatMap_map]
      simp [length_flatMap]

end Verif
