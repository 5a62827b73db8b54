import Verif.Props.Layers
import Mathlib.Analysis.SpecialFunctions.Exponential

/-!
# What a linear layer can express
-/
namespace Verif
open List NormedSpace

/-! ### The matrices of a representation of `g` depend only on how `g` acts -/

section
variable {R : Type} [CommRing R] {W : World} {g : Gid} {N : ℕ}

theorem Key.rho_local {k : Key} (hk : W.Single g N (k.base W)) {I J : Interp R}
    (hv : ∀ k, (I.vec k (some g)).sem = (J.vec k (some g)).sem) (hd : ∀ k, (I.dual k (some g)).sem = (J.dual k (some g)).sem) :
    (k.rho I).sem = (k.rho J).sem ∧ (k.drho I).sem = (k.drho J).sem := by
  have hl : ∀ a : Atom, W.Letter g a → (a.rho I).sem = (a.rho J).sem := by
    rintro a ⟨⟨-, k, rfl⟩ | ⟨-, rfl | rfl⟩, -⟩
    · exact hv k
    · exact hv 0
    · exact hd 0
  match k, hk with
  | .scalar, _ => exact ⟨rfl, rfl⟩
  | .fac (.atom a), hk =>
    exact Fac.rho_congr (f := .atom a) fun b hb => by rw [show b = a by simpa [Fac.letters] using hb]; exact hl a hk.2
  | .fac (.prod p), hk => exact Fac.rho_congr (f := .prod p) fun b hb => hl b (hk.2.2.2.1 b (Counter.mem_expand hb))
  | .dprod d, hk => exact hk.2.elim

theorem Rep.mat_local {r : Rep} (hw : r.WF W) (hk : ∀ k ∈ r.keys W, W.Single g N k) {I J : Interp R}
    (hv : ∀ k, (I.vec k (some g)).sem = (J.vec k (some g)).sem) (hd : ∀ k, (I.dual k (some g)).sem = (J.dual k (some g)).sem) :
    r.mat I = r.mat J ∧ r.dmat I = r.dmat J := by
  match r, hw with
  | .key k, hw => exact Key.rho_local (hk _ (by simp [Rep.keys])) hv hd
  | .sum s, hw =>
    have hb : ∀ k ∈ s.c.keys, W.Single g N (k.base W) := fun k h => by
      have h1 := hk k h
      match k, h1 with
      | .scalar, h1 => exact h1
      | .fac (.atom a), h1 => exact h1
      | .fac (.prod p), h1 =>
        have : Key.base W (.fac (.prod p)) = .fac (.prod p) := by
          show Key.fac (.prod ⟨p.c, range (p.size W)⟩) = _
          rw [← h1.2.2.1]
        rw [this]; exact h1
      | .dprod d, h1 => exact h1.2.elim
    have e1 : s.c.expand.map (fun k => (k.rho I).sem) = s.c.expand.map fun k => (k.rho J).sem :=
      map_congr_left fun k h => (Key.rho_local (hb k (Counter.mem_expand h)) hv hd).1
    have e2 : s.c.expand.map (fun k => (k.drho I).sem) = s.c.expand.map fun k => (k.drho J).sem :=
      map_congr_left fun k h => (Key.rho_local (hb k (Counter.mem_expand h)) hv hd).2
    constructor
    · simp only [Rep.mat, SRep.rho, conjPerm, LinOp.sem]
      rw [semM_map s.c (Key.rho I), semM_map s.c (Key.rho J), e1]
    · simp only [Rep.dmat, SRep.drho, conjPerm, LinOp.sem]
      rw [semM_map s.c (Key.drho I), semM_map s.c (Key.drho J), e2]

end

/-! ### A vector fixed by the group is fixed by its generators -/

section
variable {𝕜 : Type} [RCLike 𝕜]

set_option backward.isDefEq.respectTransparency false in
open scoped Matrix.Norms.Operator in
/-- The derivative of `exp(tD)v` at `0` is `Dv`. -/
theorem kill_of_exp {n : ℕ} (D : Matrix (Fin n) (Fin n) 𝕜) (v : Fin n → 𝕜) (h : ∀ t : ℝ, (exp (t • D)).mulVec v = v) : D.mulVec v = 0 := by
  have h1 : HasDerivAt (fun t : ℝ => exp (t • D)) (exp ((0 : ℝ) • D) * D) 0 := hasDerivAt_exp_smul_const D (0 : ℝ)
  rw [zero_smul, exp_zero, one_mul] at h1
  let φ : Matrix (Fin n) (Fin n) 𝕜 →L[ℝ] (Fin n → 𝕜) :=
    LinearMap.toContinuousLinearMap
      { toFun := fun A => A.mulVec v
        map_add' := fun A B => Matrix.add_mulVec A B v
        map_smul' := fun c A => Matrix.smul_mulVec c A v }
  have h2 : HasDerivAt (fun t : ℝ => φ (exp (t • D))) (φ D) 0 := φ.hasFDerivAt.comp_hasDerivAt 0 h1
  have h3 : (fun t : ℝ => φ (exp (t • D))) = fun _ => v := funext fun t => h t
  rw [h3] at h2
  exact h2.unique (hasDerivAt_const _ _)

theorem IsExp.kill {n : ℕ} {D : DMat 𝕜} {E : ℝ → DMat 𝕜} (h : ∀ t : ℝ, IsExp n (DMat.lin (t : 𝕜) 0 D D) (E t)) (hD : D.IsSq n) {v : List 𝕜}
    (hv : v.length = n) (h0 : ∀ t, (E t).mulVec v = v) : D.mulVec v = replicate n 0 := by
  have h1 : ∀ t : ℝ, (E t).toMatrix n n = exp (t • D.toMatrix n n) := fun t => by
    rw [(h t).eq]
    congr 1
    ext i j
    show (DMat.lin (t : 𝕜) 0 D D).e i j = _
    rw [DMat.lin_e (by rw [hD.1]; exact i.2) (by rw [hD.2]; exact j.2), Matrix.smul_apply, RCLike.real_smul_eq_coe_mul]
    simp [DMat.toMatrix]
  have h2 := kill_of_exp (D.toMatrix n n) (fun i => v.getD i.val 0) fun t => by
    rw [← h1 t]
    funext i
    have := congrArg (fun l => l.getD i.val 0) (h0 t)
    beta_reduce at this
    rw [DMat.getD_mulVec (by rw [(h t).sqE.1]; exact i.2), (h t).sqE.2, Finset.sum_range] at this
    exact this
  refine DMat.vec_ext (by simp [hD.1]) fun i hi => ?_
  rw [DMat.length_mulVec, hD.1] at hi
  rw [DMat.getD_mulVec (by rw [hD.1]; exact hi), hD.2, Finset.sum_range]
  have := congrFun h2 ⟨i, hi⟩
  simpa [getD_replicate, hi, Matrix.mulVec, dotProduct, DMat.toMatrix] using this

variable {W : World} {a : ∀ k g, AtomRep 𝕜 (W.d g) (W.asize k g)} {lie disc : ∀ g, List (Matrix (Fin (W.d g)) (Fin (W.d g)) 𝕜)} {r : Rep}
  {v : List 𝕜}

/-- The generators of `g` fix (annihilate) what the group they generate fixes. -/
theorem fixed_gens_of_group (ha : ∀ k g, (a k g).Hom (lie g) (disc g)) (hr : r.WF W) (hv : v.length = r.size W) (g : Gid)
    (hfix : ∀ h, Generated (lie g) (disc g) h → (r.mat (Interp.at W a (oneAt W g h))).mulVec v = v) :
    (∀ I ∈ (gensOf W a lie disc g).disc, (r.mat (I.only W g)).mulVec v = v) ∧
      ∀ A ∈ (gensOf W a lie disc g).lie, (r.dmat (A.onlyD W g)).mulVec v = replicate v.length 0 := by
  constructor
  · intro I hI
    obtain ⟨h, hh, rfl⟩ := mem_map.1 hI
    rw [Rep.mat_congr ((at_sized _).only g) _ _ hr]
    · exact hfix h (.gen hh)
    · intro k g'
      simp only [Interp.only]
      by_cases e : g' = g
      · rw [if_pos e]
      · rw [if_neg e]
        show DMat.one _ = DMat.ofMatrix ((a k g').rho (oneAt W g h g'))
        rw [oneAt_ne e, (a k g').one, DMat.ofMatrix_one]
    · intro k g'
      simp only [Interp.only]
      by_cases e : g' = g
      · rw [if_pos e]
      · rw [if_neg e]
        show DMat.one _ = DMat.ofMatrix ((a k g').rho (oneAt W g h g'))⁻¹.transpose
        rw [oneAt_ne e, (a k g').one, inv_one, Matrix.transpose_one, DMat.ofMatrix_one]
  · intro I hI
    obtain ⟨A, hA, rfl⟩ := mem_map.1 hI
    rw [hv, Rep.dmat_congr ((dat_sized _).onlyD g) _ _ hr]
    · refine IsExp.kill (D := r.dmat (Interp.dat W a (zeroAt W g A))) (E := fun t => r.mat (Interp.at W a (oneAt W g (exp (t • A))))) (fun t => ?_) (Rep.dmat_sq (dat_sized _) hr) hv
        fun t => hfix _ (.exp (Submodule.smul_mem _ _ (Submodule.subset_span hA)))
      have hz : ∀ g', t • zeroAt W g A g' + (0 : ℝ) • zeroAt W g A g' ∈ Submodule.span ℝ {B | B ∈ lie g'} := by
        intro g'
        rw [zero_smul, add_zero]
        by_cases e : g' = g
        · subst e; rw [zeroAt_same]; exact Submodule.smul_mem _ _ (Submodule.subset_span hA)
        · rw [zeroAt_ne e, smul_zero]; exact Submodule.zero_mem _
      have h1 := Rep.isExp (at_exp ha hz) hr
      rw [Rep.dmat_op (DMat.lin_compat _ _) (dat_sized _) (dat_sized _) (dat_lin t 0 (zeroAt W g A) (zeroAt W g A)) hr, RCLike.ofReal_zero] at h1
      have e : (fun g' => exp (t • zeroAt W g A g' + (0 : ℝ) • zeroAt W g A g')) = oneAt W g (exp (t • A)) := by
        funext g'
        rw [zero_smul, add_zero]
        by_cases e : g' = g
        · subst e; rw [zeroAt_same, oneAt_same]
        · rw [zeroAt_ne e, oneAt_ne e, smul_zero, exp_zero]
      rw [e] at h1
      exact h1
    · intro k g'
      simp only [Interp.onlyD]
      by_cases e : g' = g
      · rw [if_pos e]
      · rw [if_neg e]
        show DMat.zero _ _ = DMat.ofMatrix ((a k g').drho (zeroAt W g A g'))
        rw [zeroAt_ne e, map_zero, DMat.ofMatrix_zero]
    · intro k g'
      simp only [Interp.onlyD]
      by_cases e : g' = g
      · rw [if_pos e]
      · rw [if_neg e]
        show DMat.zero _ _ = DMat.ofMatrix (-((a k g').drho (zeroAt W g A g')).transpose)
        rw [zeroAt_ne e, map_zero, Matrix.transpose_zero, neg_zero, DMat.ofMatrix_zero]

/-- A vector of a representation of `g` that every element of `g` fixes is an invariant vector. -/
theorem fixed_of_group {g : Gid} {N : ℕ} (ha : ∀ k g, (a k g).Hom (lie g) (disc g)) (hr : r.Over W g N) (hv : v.length = r.size W)
    (hfix : ∀ h, Generated (lie g) (disc g) h → (r.mat (Interp.at W a (oneAt W g h))).mulVec v = v) :
    r.Fixed W (gensOf W a lie disc) v := by
  intro g'
  by_cases e : g' = g
  · subst e; exact fixed_gens_of_group ha hr.wf hv _ hfix
  · refine ⟨fun I hI => ?_, fun A hA => ?_⟩
    · beta_reduce
      rw [(Rep.mat_local hr.wf hr.key (I := I.only W g') (J := idI W 𝕜) (fun k => by simp [Interp.only, Ne.symm e, idI]) fun k => by
        simp [Interp.only, Ne.symm e, idI]).1, Rep.mat_one idI_one hr.wf, DMat.mulVec_one v hv]
    · beta_reduce
      rw [(Rep.mat_local hr.wf hr.key (I := A.onlyD W g') (J := zeroI W 𝕜) (fun k => by simp [Interp.onlyD, Ne.symm e, zeroI]) fun k => by
        simp [Interp.onlyD, Ne.symm e, zeroI]).2, Rep.dmat_zero hr.wf, DMat.zero_mulVec, hv]

end

/-! ### Layers -/

section
variable {W : World} {g : Gid} {N : ℕ} {gens : Gid → GenSet ℝ} {solve : ℕ → LinOp ℝ → Py (DMat ℝ)}

/-- What a `Linear` layer knows after it is built: its projectors project onto all invariant weights and biases. -/
structure LinearL.Exact (W : World) (g : Gid) (N : ℕ) (gens : Gid → GenSet ℝ) (a b : Rep) (L : LinearL ℝ) : Prop where
  nin : L.nin = a.size W
  nout : L.nout = b.size W
  w : ∃ r : Rep, r.Over W g N ∧ r.size W = b.size W * a.size W ∧
    (∀ I : Interp ℝ, I.Dual W → ∀ M : DMat ℝ, M.rows = b.size W → M.cols = a.size W →
      ((r.mat I).mulVec M.flat = M.flat ↔ M.mul (a.mat I) = (b.mat I).mul M)) ∧
    IsProjector (r.size W) L.Pw.sem (r.Fixed W gens)
  b : IsProjector (b.size W) L.Pb.sem (b.Fixed W gens)

variable (hW : W.SingleOK g N) (hs : GenSet.Sized W gens) (hsol : SolverOK W gens solve) {a b : Rep} (ha : a.Over W g N)
  (hb : b.Over W g N)
include hW hs hsol hb

theorem projector_net_exact : NetM.Meets W g gens (NetM.solver W fun W => b.equivariantProjector W gens solve) fun L =>
    IsProjector (b.size W) L.sem (b.Fixed W gens) := by
  refine NetM.Meets.solver fun x hx => ?_
  have hb' := hb.setG hW hx
  have := Rep.projector_meets (W := W.setG x) (solve := solve) (setG_gsized.2 hs) hsol hb'.wf (Rep.single_onePerGroup hb'.wf hb'.key)
  intro τ hτ
  obtain ⟨h1, h2⟩ := this τ hτ
  refine ⟨h1, fun L hL => ?_⟩
  obtain ⟨Q, hQ, e⟩ := h2 L hL
  rw [e]
  exact hQ.isProjector fun i j => rfl

include ha in
theorem LinearL.init_exact (hN : b.size W * a.size W ≤ N) :
    NetM.Meets W g gens (LinearL.init W gens solve a b) (LinearL.Exact W g N gens a b) := by
  unfold LinearL.init
  refine NetM.Meets.bind (P := fun r => r.Over W g N ∧ r.size W = b.size W * a.size W ∧
    ∀ I : Interp ℝ, I.Dual W → ∀ M : DMat ℝ, M.rows = b.size W → M.cols = a.size W →
      ((r.mat I).mulVec M.flat = M.flat ↔ M.mul (a.mat I) = (b.mat I).mul M)) ?_ ?_
  · refine NetM.Meets.lift fun x hx r hr => ?_
    have ha' := ha.setG hW hx
    have hb' := hb.setG hW hx
    obtain ⟨r', h1, -, h2, h3, h4, h5⟩ := Rep.rshift_spec (hW.setG hx) ha'.wf hb'.wf ha'.key hb'.key hN
    rw [h1] at hr
    have := Except.ok.inj hr
    subst this
    exact ⟨Rep.Over.unsetG hW hx ⟨h2, h3⟩, h4, fun I hI M hM hM' => (h5 ℝ I (setG_dual.2 hI) M hM hM').2⟩
  · rintro r ⟨hr, hz, hint⟩
    refine NetM.Meets.bind (projector_net_exact hW hs hsol hr) fun Pw hPw => ?_
    refine NetM.Meets.bind (projector_net_exact hW hs hsol hb) fun Pb hPb => ?_
    exact NetM.Meets.pure ⟨rfl, rfl, ⟨r, hr, hz, hint, hPw⟩, hPb⟩

end

/-- A function that is `x ↦ Mx + c` and maps `Ax` to `B f(x)`: then `MA = BM` and `Bc = c`. -/
theorem affine_commutes {m n : ℕ} {f : List ℝ → List ℝ} {M A B : DMat ℝ} {c : List ℝ} (hM : M.rows = m) (hM' : M.cols = n) (hc : c.length = m)
    (hA : A.IsSq n) (hB : B.IsSq m) (hf : ∀ x : List ℝ, x.length = n → f x = zipWith (· + ·) (M.mulVec x) c)
    (h : ∀ x : List ℝ, x.length = n → f (A.mulVec x) = B.mulVec (f x)) : M.mul A = B.mul M ∧ B.mulVec c = c := by
  have z : ∀ X : DMat ℝ, X.mulVec (replicate n 0) = replicate X.rows 0 := fun X => DMat.mulVec_replicate_zero X n
  have zc : ∀ y : List ℝ, y.length = m → zipWith (· + ·) (replicate m 0) y = y := fun y hy => by
    refine List.ext_getElem (by simp [hy]) fun i h1 h2 => ?_
    simp
  have h0 := h (replicate n 0) (by simp)
  rw [z A, hA.1, hf _ (by simp), z M, hM, zc c hc] at h0
  refine ⟨?_, h0.symm⟩
  have key : ∀ x : List ℝ, x.length = n → (M.mul A).mulVec x = (B.mul M).mulVec x := fun x hx => by
    have h1 := h x hx
    rw [hf _ (by rw [DMat.length_mulVec, hA.1]), hf x hx, DMat.mulVec_add _ (by simp [hM, hc]), ← h0] at h1
    rw [DMat.mulVec_mul _ _ _ (by rw [hM', hA.1]), DMat.mulVec_mul _ _ _ (by rw [hB.2, hM])]
    refine List.ext_getElem (by simp [hM, hB.1]) fun i h2 h3 => ?_
    have h4 := congrArg (fun l => l[i]?) h1
    have h5 : i < c.length := by rw [hc, ← hM]; simpa using h2
    simp only [getElem?_zipWith, List.getElem?_eq_getElem h2, List.getElem?_eq_getElem h3, List.getElem?_eq_getElem h5] at h4
    simpa using h4
  refine DMat.ext (by rw [DMat.mul_rows, DMat.mul_rows, hM, hB.1]) (by rw [DMat.mul_cols, DMat.mul_cols, hA.2, hM']) fun i j hi hj => ?_
  have hi' : i < m := by rw [← hM]; exact hi
  have hj' : j < n := by rw [← hA.2]; exact hj
  have h1 := congrArg (fun l => l.getD i 0) (key ((range n).map fun k => if k = j then 1 else 0) (by simp))
  beta_reduce at h1
  have ev : ∀ X : DMat ℝ, X.rows = m → X.cols = n → (X.mulVec ((range n).map fun k => if k = j then 1 else 0)).getD i 0 = X.e i j := by
    intro X h2 h3
    rw [DMat.getD_mulVec (by rw [h2]; exact hi'), h3, Finset.sum_eq_single j]
    · simp [hj']
    · intro k hk hkj
      rw [Finset.mem_range] at hk
      simp [hk, hkj]
    · intro h; exact absurd (Finset.mem_range.2 hj') h
  rwa [ev _ (by rw [DMat.mul_rows, hM]) (by rw [DMat.mul_cols, hA.2]), ev _ (by rw [DMat.mul_rows, hB.1]) (by rw [DMat.mul_cols, hM'])] at h1

end Verif
