import Verif.Lemmas.Cache
import Verif.Lemmas.DenseInv
import Verif.Lemmas.RepDrho
import Mathlib.Analysis.InnerProductSpace.PiL2

/-! An exact null space routine exists over ℝ and ℂ; invariants of expressions. -/
namespace Verif
open List

section
variable {𝕜 : Type} [RCLike 𝕜]

/-- A list as a vector. -/
noncomputable def toE (n : ℕ) (v : List 𝕜) : EuclideanSpace 𝕜 (Fin n) := WithLp.toLp 2 fun i => v.getD i 0

theorem toE_apply (n : ℕ) (v : List 𝕜) (i : Fin n) : toE n v i = v.getD i 0 := rfl

/-- The vectors annihilated by `A`. -/
noncomputable def kerE (A : DMat 𝕜) : Submodule 𝕜 (EuclideanSpace 𝕜 (Fin A.cols)) where
  carrier := {x | ∀ i < A.rows, ∑ j : Fin A.cols, A.e i j * x j = 0}
  zero_mem' i _ := by simp
  add_mem' {x y} hx hy i hi := by
    have := hx i hi; have h2 := hy i hi
    simp only [PiLp.add_apply, mul_add, Finset.sum_add_distrib]
    rw [this, h2, add_zero]
  smul_mem' c x hx i hi := by
    have := hx i hi
    simp only [PiLp.smul_apply, smul_eq_mul]
    have e : ∑ j : Fin A.cols, A.e i j * (c * x j) = c * ∑ j : Fin A.cols, A.e i j * x j := by
      rw [Finset.mul_sum]; exact Finset.sum_congr rfl fun j _ => by ring
    rw [e, this, mul_zero]

theorem mem_kerE {A : DMat 𝕜} {v : List 𝕜} : toE A.cols v ∈ kerE A ↔ A.mulVec v = replicate A.rows 0 := by
  constructor
  · intro h
    refine DMat.vec_ext (by simp) fun i hi => ?_
    rw [DMat.length_mulVec] at hi
    rw [DMat.getD_mulVec hi, Finset.sum_range]
    simpa [getD_eq_getElem?_getD, hi, toE_apply] using h i hi
  · intro h i hi
    have := congrArg (fun l => l.getD i 0) h
    beta_reduce at this
    rw [DMat.getD_mulVec hi, Finset.sum_range] at this
    simpa [getD_eq_getElem?_getD, hi, toE_apply] using this

theorem exists_orthoBasis (A : DMat 𝕜) : ∃ Q : DMat 𝕜, OrthoBasis A.cols Q fun v => A.mulVec v = replicate A.rows 0 := by
  obtain ⟨r, hr⟩ : ∃ r, r = Module.finrank 𝕜 (kerE A) := ⟨_, rfl⟩
  let b : OrthonormalBasis (Fin r) 𝕜 (kerE A) := (stdOrthonormalBasis 𝕜 (kerE A)).reindex (finCongr hr.symm)
  let Q : DMat 𝕜 := DMat.of A.cols r fun i j =>
    if h : i < A.cols ∧ j < r then ((b ⟨j, h.2⟩ : kerE A) : EuclideanSpace 𝕜 (Fin A.cols)) ⟨i, h.1⟩ else 0
  have Qe : ∀ (i : Fin A.cols) (j : Fin r), Q.e i j = ((b j : kerE A) : EuclideanSpace 𝕜 (Fin A.cols)) i := by
    intro i j
    change (DMat.of A.cols r _).e i j = _
    rw [DMat.of_e i.2 j.2, dif_pos ⟨i.2, j.2⟩]
  have hQ : ∀ a : List 𝕜, toE A.cols (Q.mulVec a) = ∑ j : Fin r, a.getD j 0 • ((b j : kerE A) : EuclideanSpace 𝕜 (Fin A.cols)) := by
    intro a
    refine PiLp.ext fun i => ?_
    rw [toE_apply, DMat.getD_mulVec (by exact i.2)]
    change ∑ j ∈ Finset.range r, _ = _
    rw [Finset.sum_range, WithLp.ofLp_sum, Finset.sum_apply]
    exact Finset.sum_congr rfl fun j _ => by rw [Qe]; simp [mul_comm]
  refine ⟨Q, rfl, ?_, ?_⟩
  · refine DMat.ext rfl rfl fun i j hi hj => ?_
    change i < r at hi
    change j < r at hj
    rw [DMat.mul_e (A := Q.conjTranspose) (B := Q) hi hj]
    change _ = (DMat.one r).e i j
    rw [DMat.one_e hi hj]
    change ∑ k ∈ Finset.range A.cols, _ = _
    rw [Finset.sum_range]
    have h1 : ∀ k : Fin A.cols, Q.conjTranspose.e i k * Q.e k j = inner 𝕜 (((b ⟨i, hi⟩ : kerE A) : EuclideanSpace 𝕜 (Fin A.cols)) k) (((b ⟨j, hj⟩ : kerE A) : EuclideanSpace 𝕜 (Fin A.cols)) k) := by
      intro k
      rw [DMat.conjTranspose_e]
      have e1 := Qe k ⟨i, hi⟩
      have e2 := Qe k ⟨j, hj⟩
      simp only at e1 e2
      rw [e1, e2, RCLike.inner_apply, mul_comm]; rfl
    rw [Finset.sum_congr rfl fun k _ => h1 k, ← PiLp.inner_apply, ← Submodule.coe_inner, orthonormal_iff_ite.1 b.orthonormal]
    simp
  · intro v hv
    rw [← mem_kerE]
    constructor
    · intro h
      refine ⟨List.ofFn fun j : Fin r => b.repr ⟨toE A.cols v, h⟩ j, by simp [Q], ?_⟩
      have e := congrArg (Subtype.val) (b.sum_repr ⟨toE A.cols v, h⟩)
      have e2 : toE A.cols (Q.mulVec (List.ofFn fun j : Fin r => b.repr ⟨toE A.cols v, h⟩ j)) = toE A.cols v := by
        rw [hQ]
        refine Eq.trans ?_ e
        simp [getD_eq_getElem?_getD]
      refine DMat.vec_ext (by simp [Q, hv]) fun i hi => ?_
      have hi' : i < A.cols := by simpa [Q] using hi
      have := congrArg (fun x : EuclideanSpace 𝕜 (Fin A.cols) => x ⟨i, hi'⟩) e2
      simpa [toE_apply] using this
    · rintro ⟨a, -, rfl⟩
      rw [hQ]
      exact Submodule.sum_mem _ fun j _ => Submodule.smul_mem _ _ (b j).2

/-- There is an exact and total null space routine. -/
theorem exists_solver (𝕜 : Type) [RCLike 𝕜] : ∃ s : LinOp 𝕜 → Py (DMat 𝕜), (∀ W gens, SolverOK W gens fun _ => s) ∧ ∀ C, ∃ Q, s C = .ok Q :=
  ⟨fun C => .ok (exists_orthoBasis C.sem).choose, fun _ _ _ _ C Q _ h => by
    injection h with h; rw [← h]; exact (exists_orthoBasis C.sem).choose_spec, fun C => ⟨_, rfl⟩⟩

end

variable {W : World} {g : Gid} {N : ℕ} {R : Type} [CommRing R] {gens : Gid → GenSet R}

theorem GenSet.Dual.sized (h : GenSet.Dual W gens) : GenSet.Sized W gens :=
  fun g => ⟨fun x hx => ((h g).1 x hx).toSized, fun x hx => ((h g).2 x hx).sized⟩

theorem idI_dual : (idI W R).Dual W where
  vec _ _ := ⟨rfl, rfl⟩
  dual _ _ := ⟨rfl, rfl⟩
  inv k g := by
    change (DMat.one (W.asize k g) : DMat R).transpose.mul (DMat.one (W.asize k g)) = _
    rw [DMat.transpose_one]; exact DMat.one_mul' (DMat.one _) rfl
  orth k g _ := by
    change (DMat.one (W.asize k g) : DMat R).transpose.mul (DMat.one (W.asize k g)) = _
    rw [DMat.transpose_one]; exact DMat.one_mul' (DMat.one _) rfl

theorem zeroI_dual : (zeroI W R).DDual W where
  sq _ _ := ⟨rfl, rfl⟩
  dual k g := (DMat.zero_transpose_neg (R := R) (W.asize k g)).symm
  orth k g _ := DMat.zero_transpose_neg (R := R) (W.asize k g)

theorem Rep.dmat_zero {r : Rep} (hr : r.WF W) : r.dmat (zeroI W R) = DMat.zero (r.size W) (r.size W) := by
  rw [Rep.dmat_op (DMat.lin_compat 0 0) zeroI_sized zeroI_sized zeroI_is hr, DMat.lin_zero (Rep.dmat_sq zeroI_sized hr)]

/-- The invariants of the value of an expression are the invariants of its meaning. -/
theorem Expr.fixed_iff (hW : W.SingleOK g N) (e : Expr) (h : e.OK W g) (hN : e.bound W g ≤ N) {r : Rep}
    (hr : e.eval W g = .ok r) (hd : GenSet.Dual W gens) {v : List R} (hv : v.length = e.dim W g) :
    r.Fixed W gens v ↔ (∀ x ∈ (gens g).disc, (e.den g x).1.mulVec v = v) ∧
      ∀ A ∈ (gens g).lie, (e.dden g A).1.mulVec v = replicate v.length 0 := by
  obtain ⟨r', hr', hwf, -, hsz, hm⟩ := e.eval_good hW h hN
  rw [hr] at hr'
  cases hr'
  have hD : ∀ I : Interp R, I.DDual W → r.dmat I = (e.dden g I).1 := fun I hI => e.eval_drho hW h hN hr hI
  have same : ∀ x ∈ (gens g).disc, r.mat (x.only W g) = (e.den g x).1 := fun x hx => by
    rw [hm R _ (((hd g).1 x hx).only g), e.den_congr (fun k => congrArg _ ((Interp.only_same x).1 k)) fun k => congrArg _ ((Interp.only_same x).2 k)]
  have sameD : ∀ x ∈ (gens g).lie, r.dmat (x.onlyD W g) = (e.dden g x).1 := fun x hx => by
    rw [hD _ (((hd g).2 x hx).onlyD g), e.dden_congr (fun k => congrArg _ ((Interp.onlyD_same x).1 k)) fun k => congrArg _ ((Interp.onlyD_same x).2 k)]
  simp only [Rep.Fixed, FixedBy]
  constructor
  · intro hf
    exact ⟨fun x hx => by rw [← same x hx]; exact (hf g).1 x hx, fun x hx => by rw [← sameD x hx]; exact (hf g).2 x hx⟩
  · intro hf g'
    by_cases hg : g' = g
    · subst hg
      exact ⟨fun x hx => by rw [same x hx]; exact hf.1 x hx, fun x hx => by rw [sameD x hx]; exact hf.2 x hx⟩
    · refine ⟨fun x hx => ?_, fun x hx => ?_⟩
      · rw [hm R _ (((hd g').1 x hx).only g'), e.den_congr (J := idI W R), ← hm R _ idI_dual, Rep.mat_one idI_one hwf]
        · exact DMat.mulVec_one v (hv.trans hsz.symm)
        · intro k; simp [Interp.only, Ne.symm hg, idI]
        · intro k; simp [Interp.only, Ne.symm hg, idI]
      · rw [hD _ (((hd g').2 x hx).onlyD g'), e.dden_congr (J := zeroI W R), ← hD _ zeroI_dual, Rep.dmat_zero hwf]
        · rw [DMat.zero_mulVec, hv, hsz]
        · intro k; simp [Interp.onlyD, Ne.symm hg, zeroI]
        · intro k; simp [Interp.onlyD, Ne.symm hg, zeroI]

end Verif
