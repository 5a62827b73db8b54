import Verif.Props.Subgroups

/-! A block that computes the identity. -/
namespace Verif
open List

/-! ## The bilinear layer with parameters zero -/

theorem getD_zero {v : List ℝ} (h : ∀ a ∈ v, a = 0) (i : ℕ) : v.getD i 0 = 0 := by
  by_cases hi : i < v.length
  · rw [getD_eq_getElem _ _ hi]; exact h _ (getElem_mem hi)
  · exact getD_eq_default _ _ (not_lt.1 hi)

theorem DMat.unflat_zero {v : List ℝ} (h : ∀ i, v.getD i 0 = 0) (m n i j : ℕ) : (DMat.unflat m n v).e i j = 0 := by
  by_cases hij : i < m ∧ j < n
  · exact (DMat.of_e hij.1 hij.2).trans (h _)
  · exact DMat.out _ _ _ hij

theorem mul_zero_left {A : DMat ℝ} (h0 : ∀ a b, A.e a b = 0) (C : DMat ℝ) (u v : ℕ) : (A.mul C).e u v = 0 := by
  by_cases huv : u < (A.mul C).rows ∧ v < (A.mul C).cols
  · rw [DMat.mul_e (A := A) (B := C) huv.1 huv.2]
    exact Finset.sum_eq_zero fun l _ => by rw [h0, zero_mul]
  · exact DMat.out _ _ _ huv

theorem blocks_zero {W : World} {L : BilinearL} {params : List ℝ} (hp : ∀ a ∈ params, a = 0) (X : DMat ℝ) (t : Counter Key) :
    ∀ (i : ℕ) (Ms : List (DMat ℝ)), L.blocks W params X i t = .ok Ms → ∀ M ∈ Ms, ∀ a b, M.e a b = 0 := by
  induction t with
  | nil =>
    intro i Ms h M hM
    obtain rfl := Except.ok.inj (show (Except.ok [] : Py (List (DMat ℝ))) = .ok Ms from h)
    simp at hM
  | cons km t ih =>
    obtain ⟨k, m⟩ := km
    intro i Ms h M hM
    rw [BilinearL.blocks] at h
    cases hl : L.xc.lookup k with
    | none =>
      rw [hl] at h
      simp only at h
      cases hr : L.blocks W params X i t with
      | error e => rw [hr] at h; exact absurd h (by simp [Bind.bind, Except.bind])
      | ok Ms' =>
        rw [hr] at h
        obtain rfl := Except.ok.inj (show (Except.ok (DMat.zero X.rows (m * k.size W) :: Ms') : Py (List (DMat ℝ))) = .ok Ms from h)
        rcases mem_cons.1 hM with rfl | hM
        · intro a b
          by_cases hab : a < X.rows ∧ b < m * k.size W
          · exact DMat.of_e hab.1 hab.2
          · exact DMat.out _ _ _ hab
        · exact ih _ _ hr M hM
    | some xm =>
      rw [hl] at h
      simp only at h
      split_ifs at h with hc
      cases hr : L.blocks W params X (i + m * min xm (k.size W)) t with
      | error e => rw [hr] at h; exact absurd h (by simp [Bind.bind, Except.bind])
      | ok Ms' =>
        rw [hr] at h
        have h' := Except.ok.inj (show (Except.ok (_ :: Ms') : Py (List (DMat ℝ))) = .ok Ms from h)
        rw [← h'] at hM
        rcases mem_cons.1 hM with rfl | hM
        · intro a b
          rw [DMat.transpose_e]
          refine DMat.unflat_zero (fun j => ?_) _ _ _ _
          rw [flat_getD]
          split_ifs
          · rfl
          · obtain ⟨A, hA⟩ : ∃ A : DMat ℝ, A = DMat.unflat m (min xm (k.size W)) ((params.drop i).take (m * min xm (k.size W))) := ⟨_, rfl⟩
            have h0 : ∀ a b, A.e a b = 0 := by
              intro a b
              rw [hA]
              exact DMat.unflat_zero (getD_zero fun a ha => hp a (mem_of_mem_drop (mem_of_mem_take ha))) _ _ _ _
            rw [← hA]
            exact mul_zero_left h0 _ _ _
        · exact ih _ _ hr M hM

theorem hcat_zero {bs : ℕ} {Ms : List (DMat ℝ)} (h : ∀ M ∈ Ms, ∀ a b, M.e a b = 0) (a b : ℕ) : (DMat.hcat bs Ms).e a b = 0 := by
  induction Ms generalizing b with
  | nil =>
    by_cases hab : a < bs ∧ b < 0
    · omega
    · exact DMat.out _ _ _ hab
  | cons M t ih =>
    show (M.hcat2 (DMat.hcat bs t)).e a b = 0
    by_cases hab : a < M.rows ∧ b < M.cols + (DMat.hcat bs t).cols
    · refine (DMat.of_e hab.1 hab.2).trans ?_
      split_ifs
      · exact h M (by simp) _ _
      · exact ih (fun M hM => h M (by simp [hM])) _
    · exact DMat.out _ _ _ hab

/-- With parameters zero the bilinear layer returns zeros. -/
theorem bilinear_zero {W : World} {L : BilinearL} {c : ℝ} {params x y : List ℝ} (hp : ∀ a ∈ params, a = 0) (h : L.applyVec W c params x = .ok y) :
    ∀ i, y.getD i 0 = 0 := by
  by_cases hn : x.length = L.nin
  · cases hb : L.blocks W params (DMat.of 1 x.length fun _ j => x.getD j 0) 0 L.Wc with
    | error e => rw [applyVec_err hn (project_err hb)] at h; cases h
    | ok Ms =>
      have hpr := project_ok (W := W) (L := L) (X := DMat.of 1 x.length fun _ j => x.getD j 0) rfl hb
      by_cases hs : L.invPerm.length = L.nout * L.nin
      · rw [applyVec_ok hn (hpr.trans (if_pos hs))] at h
        obtain rfl := Except.ok.inj h
        intro i
        rw [DMat.getD_row]
        by_cases hi : 0 < 1 ∧ i < L.nout
        · refine (DMat.of_e hi.1 hi.2).trans ?_
          have h0 : ∀ a b, (DMat.unflat L.nout L.nin (((DMat.hcat 1 Ms).pick (range 1) L.invPerm).row 0)).e a b = 0 := by
            refine fun a b => DMat.unflat_zero (fun j => ?_) _ _ _ _
            rw [DMat.getD_row]
            by_cases hj : 0 < (range 1).length ∧ j < L.invPerm.length
            · rw [DMat.pick_e hj.1 hj.2]
              exact hcat_zero (blocks_zero hp _ _ _ _ hb) _ _
            · exact DMat.out _ _ _ hj
          simp only [getD_cons_zero]
          rw [DMat.getD_mulVec (show i < (DMat.unflat L.nout L.nin _).rows from hi.2), Finset.sum_eq_zero fun l _ => by rw [h0, zero_mul], mul_zero]
        · exact DMat.out _ _ _ hi
      · rw [applyVec_err hn (hpr.trans (if_neg hs))] at h; cases h
  · rw [applyVec_shape hn] at h; cases h

/-! ## Open gates -/

/-- If every summand is gated and every gate is zero, the nonlinearity multiplies by `act 0`. -/
theorem gateOut_zero {W : World} (act : ℝ → ℝ) (ks : List Key) (h : ∀ k ∈ ks, k.needsGate W = true) : ∀ (v : List ℝ) (n : ℕ),
    v.length = (ks.map (Key.size W)).sum → gateOut W act ks v (replicate n 0) = v.map (act 0 * ·) := by
  induction ks with
  | nil =>
    intro v n hv
    obtain rfl : v = [] := length_eq_zero_iff.1 (by simpa using hv)
    rfl
  | cons k t ih =>
    intro v n hv
    simp only [map_cons, sum_cons] at hv
    rw [gateOut, if_pos (h k (by simp)), tail_replicate, ih (fun k hk => h k (by simp [hk])) _ _ (by simp; omega),
      getD_zero fun a ha => (mem_replicate.1 ha).2, ← map_append, take_append_drop]

/-! ## The identity -/

/-- Twice the embedding of the first `n` coordinates. -/
noncomputable def twiceEmb (n k : ℕ) : DMat ℝ := DMat.of (n + k) n fun i j => if i = j then 2 else 0

theorem twiceEmb_mulVec {n k : ℕ} {y : List ℝ} (hy : y.length = n) : (twiceEmb n k).mulVec y = y.map (2 * ·) ++ replicate k 0 := by
  refine DMat.vec_ext (by rw [DMat.length_mulVec]; simp [twiceEmb, DMat.of, hy]) fun i hi => ?_
  rw [DMat.length_mulVec] at hi
  rw [DMat.getD_mulVec hi]
  change i < n + k at hi
  show ∑ l ∈ Finset.range n, _ = _
  have e : ∀ l ∈ Finset.range n, (twiceEmb n k).e i l * y.getD l 0 = if i = l then 2 * y.getD l 0 else 0 := fun l hl => by
    rw [twiceEmb, DMat.of_e hi (Finset.mem_range.1 hl), ite_mul, zero_mul]
  rw [Finset.sum_congr rfl e, Finset.sum_ite_eq]
  by_cases h : i < n
  · rw [if_pos (Finset.mem_range.2 h), getD_append _ _ _ _ (by simpa [hy] using h)]
    simp [getD_eq_getElem?_getD, getElem?_eq_getElem (hy.symm ▸ h : i < y.length)]
  · rw [if_neg (by simpa using h), getD_append_right _ _ _ _ (by simpa [hy] using h), getD_zero fun a ha => (mem_replicate.1 ha).2]

/-- It commutes with the action on the coordinates, with gates added on which the action is trivial. -/
theorem twiceEmb_commutes {n k : ℕ} {A : DMat ℝ} (hA : A.IsSq n) : (twiceEmb n k).mul A = (DMat.bdiag2 A (DMat.one k)).mul (twiceEmb n k) := by
  have hr : (DMat.bdiag2 A (DMat.one k)).rows = n + k := by simp [DMat.bdiag2, DMat.of, DMat.one, hA.1]
  have hc : (DMat.bdiag2 A (DMat.one k)).cols = n + k := by simp [DMat.bdiag2, DMat.of, DMat.one, hA.2]
  refine DMat.ext (by rw [DMat.mul_rows, DMat.mul_rows, hr]; rfl) (by rw [DMat.mul_cols, DMat.mul_cols, hA.2]; rfl) fun i j hi hj => ?_
  change i < n + k at hi
  rw [DMat.mul_cols, hA.2] at hj
  rw [DMat.mul_e (show i < (twiceEmb n k).rows from hi) (by rw [hA.2]; exact hj), DMat.mul_e (by rw [hr]; exact hi) (show j < (twiceEmb n k).cols from hj), hc]
  change ∑ l ∈ Finset.range n, _ = _
  have e1 : ∀ l ∈ Finset.range n, (twiceEmb n k).e i l * A.e l j = if i = l then 2 * A.e l j else 0 := fun l hl => by
    rw [twiceEmb, DMat.of_e hi (Finset.mem_range.1 hl), ite_mul, zero_mul]
  have e2 : ∀ l ∈ Finset.range (n + k), (DMat.bdiag2 A (DMat.one k)).e i l * (twiceEmb n k).e l j = if l = j then (DMat.bdiag2 A (DMat.one k)).e i l * 2 else 0 :=
    fun l hl => by rw [twiceEmb, DMat.of_e (Finset.mem_range.1 hl) hj, mul_ite, mul_zero]
  rw [Finset.sum_congr rfl e1, Finset.sum_congr rfl e2, Finset.sum_ite_eq, Finset.sum_ite_eq', if_pos (Finset.mem_range.2 (show j < n + k by omega))]
  by_cases h : i < n
  · rw [if_pos (Finset.mem_range.2 h), DMat.bdiag2_e11 (by rw [hA.1]; exact h) (by rw [hA.2]; exact hj), mul_comm]
  · rw [if_neg fun q => h (Finset.mem_range.1 q), DMat.bdiag2_e21 (by rw [hA.1]; omega) (by rw [hA.2]; exact hj), zero_mul]

/-- Parameters for which a block is the identity. -/
noncomputable def BlockParams.ident (W : World) (r : Rep) (B : Block ℝ) : BlockParams ℝ :=
  ⟨twiceEmb (r.size W) (r.gates W), replicate (r.size W + r.gates W) 0, replicate B.bil.dims 0⟩

section
variable {W : World} {g : Gid} {N : ℕ} {custom : ∀ k g, AtomRep ℝ (W.d g) (W.usize k g)} {lie disc : ∀ g, List (Matrix (Fin (W.d g)) (Fin (W.d g)) ℝ)}

theorem Block.ident {gens' : Gid → GenSet ℝ} (ok : GroupsOK W custom lie disc) {r : Rep} {B B' : Block ℝ} (hr : r.Over W g N)
    (h : Block.Paired W g N (gensOf W (stdAtoms W custom) lie disc) gens' r r B B') :
    (BlockParams.ident W r B).Shaped B ∧ ((∀ k ∈ r.summands W, k.Gated W) → r.CanonicalSum W →
      ∀ (c : ℝ) (act : ℝ → ℝ), act 0 = 1 / 2 → ∀ y : List ℝ, y.length = r.size W → B.apply W c act (BlockParams.ident W r B) y = .ok y) := by
  obtain ⟨g1, h1, hl, -⟩ := h.lin
  refine ⟨⟨by rw [hl.nout, h1.size]; rfl, by rw [hl.nin]; rfl, by rw [hl.nout, h1.size]; exact length_replicate, length_replicate⟩, ?_⟩
  rintro hg ⟨s, rfl, hs⟩ c act ha y hy
  obtain ⟨n, hn⟩ : ∃ n, n = (Rep.sum s).size W := ⟨_, rfl⟩
  obtain ⟨k, hk⟩ : ∃ k, k = (Rep.sum s).gates W := ⟨_, rfl⟩
  have hz := h1.size
  rw [← hn, ← hk] at hz
  obtain ⟨r', hr', hz', hint, hp⟩ := hl.w
  have hfl : (twiceEmb n k).flat.length = r'.size W := by rw [DMat.length_flat, hz', hz, ← hn]; rfl
  have e1 : B.lin.Pw.sem.mulVec (twiceEmb n k).flat = (twiceEmb n k).flat := by
    refine (hp.fix _ hfl).1 ((fixed_iff_group ok hr' hfl).2 fun h hh => ?_)
    refine (hint _ (elem_dual ok hh) _ hz.symm hn).2 ?_
    rw [h1.mat ℝ _ (elem_dual ok hh).toSized, ← hk]
    exact twiceEmb_commutes (hn ▸ Rep.mat_sq (elem_dual ok hh).toSized hr.wf)
  have e2 : B.lin.Pb.sem.mulVec (replicate (n + k) 0) = replicate (n + k) 0 := by
    refine DMat.vec_ext (by rw [DMat.length_mulVec, hl.b.sq.1, hz]; simp) fun i hi => ?_
    rw [DMat.length_mulVec] at hi
    rw [DMat.getD_mulVec hi, getD_zero fun a ha => (mem_replicate.1 ha).2]
    exact Finset.sum_eq_zero fun l _ => by rw [getD_zero fun a ha => (mem_replicate.1 ha).2, mul_zero]
  have e3 : B.lin.apply (twiceEmb n k) (replicate (n + k) 0) y = .ok (y.map (2 * ·) ++ replicate k 0) := by
    unfold LinearL.apply
    rw [if_pos ⟨by rw [hl.nout, hz]; rfl, by rw [hl.nin, ← hn]; rfl, by rw [hl.nout, hz]; simp, by rw [hl.nin]; exact hy⟩, e1, e2, DMat.flat_unflat]
    show Except.ok (zipWith _ ((twiceEmb n k).mulVec y) _) = _
    rw [twiceEmb_mulVec (hn ▸ hy)]
    refine congrArg Except.ok (DMat.vec_ext (by simp [hy, hn]) fun i hi => ?_)
    rw [length_zipWith] at hi
    rw [getD_eq_getElem _ _ (by rw [length_zipWith]; exact hi), getElem_zipWith, getElem_replicate, add_zero, getD_eq_getElem _ _ (by omega)]
  obtain ⟨z, f1, f2, -⟩ := h.com _ (elem_dual ok (Generated.one (lie := lie g) (disc := disc g))) c (replicate B.bil.dims 0) (by simp)
    (y.map (2 * ·) ++ replicate k 0) (by simp [hy, hk])
  have f3 := bilinear_zero (fun a ha => (mem_replicate.1 ha).2) f1
  have f4 : zipWith (· + ·) z (y.map (2 * ·) ++ replicate k 0) = y.map (2 * ·) ++ replicate k 0 := by
    have hlen : (y.map (2 * ·) ++ replicate k 0).length = z.length := by rw [f2]; simp [hy, hk]
    refine DMat.vec_ext (by rw [length_zipWith, hlen, min_self]) fun i hi => ?_
    rw [length_zipWith] at hi
    have := f3 i
    rw [getD_eq_getElem _ _ (by omega)] at this
    rw [getD_eq_getElem _ _ (by rw [length_zipWith]; exact hi), getElem_zipWith, this, zero_add, getD_eq_getElem _ _ (by omega)]
  have hwf : s.WF W := hr.wf
  have hcan : s.canonical = true := by
    unfold SRep.canonical
    rw [beq_iff_eq, length_of_perm_range hwf.perm, hs]
  have hz3 : (s.c.expand.map (Key.size W)).sum = s.size W := by rw [sum_map_expand]; rfl
  unfold Block.apply BlockParams.ident
  rw [← hn, ← hk]
  show (B.lin.apply (twiceEmb n k) (replicate (n + k) 0) y >>= _) = _
  rw [e3]
  show (B.bil.applyVec W c (replicate B.bil.dims 0) (y.map (2 * ·) ++ replicate k 0) >>= _) = _
  rw [f1]
  show gatedNonlinearity W act B.rep (zipWith (· + ·) z (y.map (2 * ·) ++ replicate k 0)) = _
  rw [f4, h.rep, gatedNonlinearity_eq act hwf hcan (by rw [length_map]; exact hy) (by rw [length_replicate, hk]),
    gateOut_zero act s.c.expand (fun k hk => (Key.needsGate_iff (hr.wf.summands k hk)).2 (hg k hk)) _ _ (by rw [hz3, length_map]; exact hy), map_map, ha]
  refine congrArg Except.ok ?_
  conv_rhs => rw [← map_id y]
  exact map_congr_left fun a _ => by simp

end
end Verif
