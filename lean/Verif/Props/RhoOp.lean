import Verif.Lemmas.BasisOp
import Verif.Lemmas.ConstraintOp
import Verif.Lemmas.SolverExists
import Verif.Props.Solver
import Verif.Props.Direct
import Mathlib.Algebra.Star.Rat

/-!
# The operator objects of representations compute what they denote (C73, C74)

`rep.rho(M)` and `rep.drho(A)` with their operator classes (`Rep.rhoOp`, `Rep.drhoOp`), `rep.constraint_matrix()`
(`Fac.constraintOp`), `rep.equivariant_basis()` (`Rep.basisOp`) and `rep.equivariant_projector()` (`Rep.projectorOp`).  `Op.Computes X A`
says that `X.shape`, `densify(X)`, `X@v` and `X@V`, computed by the reshapes, transposes and loops of the operator classes, are those
of the matrix `A`.  `inv` is `np.linalg.inv`.
-/
namespace Verif
open List

theorem Op.Stands.computes {R : Type} [CommRing R] [StarRing R] {X : Op R} {A : DMat R} (h : X.Stands A) : X.Computes A := by
  obtain ⟨h1, rfl⟩ := h
  exact ⟨X.shape_eq h1, X.toDense_eq h1, fun v hv => (X.fwd_is h1).dot_vec v hv, fun V hV => (X.fwd_is h1).dot V hV⟩

/-- An exact inverse exists. -/
theorem invSpec_exists (F : Type) [Field F] : ∃ inv : DMat F → Py (DMat F), Op.InvSpec inv := by
  classical
  refine ⟨fun A => if h : ∃ (n : ℕ) (B : DMat F), A.IsSq n ∧ B.IsSq n ∧ B.mul A = DMat.one n then .ok h.choose_spec.choose else .error .value, ?_⟩
  intro A n hA ⟨B, hB, hBA⟩
  have h : ∃ (n : ℕ) (B : DMat F), A.IsSq n ∧ B.IsSq n ∧ B.mul A = DMat.one n := ⟨n, B, hA, hB, hBA⟩
  refine ⟨h.choose_spec.choose, dif_pos h, ?_⟩
  have hn : h.choose = n := h.choose_spec.choose_spec.1.1.symm.trans hA.1
  have := h.choose_spec.choose_spec.2
  exact ⟨hn ▸ this.1, this.2.trans (by rw [hn])⟩

section
variable {F : Type} [Field F] [StarRing F] [DecidableEq F] {W : World} {inv : DMat F → Py (DMat F)} {I : OpInterp F} {J : Interp F}

/-! ### C73 -/

/-- **C73.** For a well-formed representation, including products over several groups: `rep.rho(M)@v`, `rep.rho(M)@V` and
`rep.rho_dense(M)` are those of the matrix of the element. -/
theorem C73_rho (hinv : Op.InvSpec inv) (hJ : J.Dual W) (hI : I.Of J) (hr : I.Inv W) {r : Rep} (hw : r.WF W) (hd : ∀ k ∈ r.keys W, k.Deep W) :
    (∃ X, r.rhoOp inv I = .ok X ∧ X.Computes (r.mat J)) ∧ r.rhoDense inv I = .ok (r.mat J) := by
  obtain ⟨X, x1, x2⟩ := Rep.rhoOp_ok hinv hJ hI hr hw hd
  exact ⟨⟨X, x1, x2.computes⟩, by rw [Rep.rhoDense, x1]; exact x2.computes.dense⟩

theorem World.Multi.deep {Γ : Gid → Prop} {κ : Gid → ℕ} (hΓ : W.GroupsOK Γ κ) {k : Key} (h : W.Multi Γ (letter κ) k) : k.Deep W := by
  have hp : ∀ g n, Γ g → n ≠ 0 → (Fac.power W (letter κ g) n).Deep W := by
    intro g n hg hn
    have ha : (letter κ g).Deep W := fun e => absurd (hΓ.two g hg) (by rw [e]; omega)
    rw [Fac.power]
    split_ifs with h1
    · exact ha
    · refine ⟨by simp [Counter.expand]; omega, ?_⟩
      simpa [Counter.keys] using ha
  match k, h with
  | .scalar, _ => trivial
  | .fac f, ⟨g, n, hg, hn, hf⟩ => rw [hf]; exact hp g n hg hn
  | .dprod d, ⟨l, l1, l2, _, l4, _⟩ =>
    refine ⟨?_, ?_⟩
    · rw [l4, Counter.expand, flatMap_map]; simpa using l1
    · rw [l4]
      intro f hf
      simp only [Counter.keys, map_map, mem_map] at hf
      obtain ⟨x, hx, rfl⟩ := hf
      exact hp _ _ (l2 x hx).1 (l2 x hx).2

theorem World.Multi.base_deep {Γ : Gid → Prop} {κ : Gid → ℕ} (hΓ : W.GroupsOK Γ κ) {k : Key} (h : W.Multi Γ (letter κ) (k.base W)) :
    ∀ x ∈ Rep.keys W (.key k), x.Deep W := by
  intro x hx
  simp only [Rep.keys, mem_singleton] at hx
  rw [hx]; exact World.Multi.deep hΓ h

/-- **C73.** Products over several groups, in any order and bracketing: `rho(M)@v`, `rho(M)@V` and `rho_dense(M)` are those of the
Kronecker product. -/
theorem C73_products_rho {Γ : Gid → Prop} {κ : Gid → ℕ} (hΓ : W.GroupsOK Γ κ) (m : Mono) (h : ∀ g ∈ m.groups, Γ g)
    (hinv : Op.InvSpec inv) (hJ : J.Dual W) (hI : I.Of J) (hr : I.Inv W) :
    ∃ r, m.eval W κ = .ok r ∧ (∃ X, r.rhoOp inv I = .ok X ∧ X.Computes (m.den κ J).1) ∧ r.rhoDense inv I = .ok (m.den κ J).1 := by
  obtain ⟨k, k1, k2, k3, k4, -, k6, -⟩ := Mono.eval_good hΓ m h
  have := C73_rho hinv hJ hI hr (r := .key k) k2 (World.Multi.base_deep hΓ k3)
  rw [show Rep.mat J (.key k) = (m.den κ J).1 from k6 F J hJ.toSized] at this
  exact ⟨_, k1, this⟩

/-- **C73.** Sums of products over several groups, under the conditions of **C04**. -/
theorem C73_sums_rho {Γ : Gid → Prop} {κ : Gid → ℕ} {g0 : Gid} {N : ℕ} (hW : W.MultiOK Γ κ g0 N) (e : MExpr) (h : e.OK W Γ g0) (hN : e.bound W κ ≤ N)
    (hinv : Op.InvSpec inv) (hJ : J.Dual W) (hI : I.Of J) (hr : I.Inv W) :
    ∃ r, e.eval W κ = .ok r ∧ (∃ X, r.rhoOp inv I = .ok X ∧ X.Computes (e.den κ J).1) ∧ r.rhoDense inv I = .ok (e.den κ J).1 := by
  obtain ⟨r, r1, r2, r3, -, r5⟩ := MExpr.eval_good hW e h hN
  have := C73_rho hinv hJ hI hr r2 fun k hk => World.Multi.deep hW.toGroupsOK (r3 k hk).2.1
  rw [r5 F J hJ] at this
  exact ⟨r, r1, this⟩

/-- **C73.** For a representation written as an expression: `rho(M)@v`, `rho(M)@V` and `rho_dense(M)` are those of the matrix the
expression describes (Kronecker products, block sums, transposed inverses). -/
theorem C73_expressions_rho {g : Gid} {N : ℕ} (hW : W.SingleOK g N) (e : Expr) (h : e.OK W g) (hN : e.bound W g ≤ N)
    (hinv : Op.InvSpec inv) (hJ : J.Dual W) (hI : I.Of J) (hr : I.Inv W) :
    ∃ r, e.eval W g = .ok r ∧ (∃ X, r.rhoOp inv I = .ok X ∧ X.Computes (e.den g J).1) ∧ r.rhoDense inv I = .ok (e.den g J).1 := by
  obtain ⟨r, r1, r2, r3, -, r5⟩ := e.eval_good hW h hN
  have := C73_rho hinv hJ hI hr r2 fun k hk => (r3 k hk).deep
  rw [r5 F J hJ] at this
  exact ⟨r, r1, this⟩

end

section
variable {R : Type} [CommRing R] [StarRing R] {W : World} {I : OpInterp R} {J : Interp R}

/-- **C73.** The same for Lie algebra elements: `drho(A)@v`, `drho(A)@V` and `drho_dense(A)`. -/
theorem C73_drho (hJ : J.DDual W) (hI : I.Of J) (hr : I.Rev W) {r : Rep} (hw : r.WF W) (hd : ∀ k ∈ r.keys W, k.Deep W) :
    (∃ X, r.drhoOp I = .ok X ∧ X.Computes (r.dmat J)) ∧ r.drhoDense I = .ok (r.dmat J) := by
  obtain ⟨X, x1, x2⟩ := Rep.drhoOp_ok hJ hI hr hw hd
  exact ⟨⟨X, x1, x2.computes⟩, by rw [Rep.drhoDense, x1]; exact x2.computes.dense⟩

/-- **C73.** Lie algebra elements acting on the representation that an expression describes. -/
theorem C73_expressions_drho {g : Gid} {N : ℕ} (hW : W.SingleOK g N) (e : Expr) (h : e.OK W g) (hN : e.bound W g ≤ N)
    (hJ : J.DDual W) (hI : I.Of J) (hr : I.Rev W) :
    ∃ r, e.eval W g = .ok r ∧ (∃ X, r.drhoOp I = .ok X ∧ X.Computes (e.dden g J).1) ∧ r.drhoDense I = .ok (e.dden g J).1 := by
  obtain ⟨r, r1, r2, r3, -, -⟩ := e.eval_good hW h hN
  have := C73_drho hJ hI hr r2 fun k hk => (r3 k hk).deep
  rw [e.eval_drho hW h hN r1 hJ] at this
  exact ⟨r, r1, this⟩

/-- **C73.** Lie algebra elements acting on products over several groups. -/
theorem C73_products_drho {Γ : Gid → Prop} {κ : Gid → ℕ} (hΓ : W.GroupsOK Γ κ) (m : Mono) (h : ∀ g ∈ m.groups, Γ g)
    (hJ : J.DDual W) (hI : I.Of J) (hr : I.Rev W) :
    ∃ r, m.eval W κ = .ok r ∧ (∃ X, r.drhoOp I = .ok X ∧ X.Computes (m.dden κ J).1) ∧ r.drhoDense I = .ok (m.dden κ J).1 := by
  obtain ⟨k, k1, k2, k3, k4, -, -, k7⟩ := Mono.eval_good hΓ m h
  have := C73_drho hJ hI hr (r := .key k) k2 (World.Multi.base_deep hΓ k3)
  rw [show Rep.dmat J (.key k) = (m.dden κ J).1 from k7 R J hJ.sized] at this
  exact ⟨_, k1, this⟩

/-- **C73.** Lie algebra elements acting on sums of products over several groups. -/
theorem C73_sums_drho {Γ : Gid → Prop} {κ : Gid → ℕ} {g0 : Gid} {N : ℕ} (hW : W.MultiOK Γ κ g0 N) (e : MExpr) (h : e.OK W Γ g0) (hN : e.bound W κ ≤ N)
    (hJ : J.DDual W) (hI : I.Of J) (hr : I.Rev W) :
    ∃ r, e.eval W κ = .ok r ∧ (∃ X, r.drhoOp I = .ok X ∧ X.Computes (e.dden κ J).1) ∧ r.drhoDense I = .ok (e.dden κ J).1 := by
  obtain ⟨r, r1, r2, r3, -, r5⟩ := MExpr.eval_good hW e h hN
  have := C73_drho hJ hI hr r2 fun k hk => World.Multi.deep hW.toGroupsOK (r3 k hk).2.1
  have e1 : r.dmat J = (e.dden κ J).1 := by
    apply DMat.eps_inj
    rw [← Rep.eps_mat hJ.sized r2, (e.dden_eps hJ).e1]
    exact r5 _ _ hJ.eps
  rw [e1] at this
  exact ⟨r, r1, this⟩

/-- C73 fails for a product of one factor when the group element is an array: `LazyKron([M])` is the array itself, and
`LazyPerm(invperm)@M@LazyPerm(perm)` multiplies an array by an operator, which raises `TypeError`.  (Such a product arises only by
calling `ProductRep` directly, or from `DirectProduct` of one factor.) -/
theorem C73_counterexample_one_factor (inv : DMat ℚ → Py (DMat ℚ)) (M : DMat ℚ) (hM : M.rows = 2 ∧ M.cols = 2) :
    PRep.rhoOp inv ⟨fun _ _ => .arr M⟩ ⟨[(.vec 0 (some 1), 1)], range 2⟩ = .error .type := by
  have h : ∃ Y, (Op.perm (argsort [0, 1]) : Op ℚ).dot M.toArr = .ok (DMat.toArr Y) ∧ Y.rows = 2 ∧ Y.cols = 2 := by
    have hp : (Op.perm (argsort [0, 1]) : Op ℚ).WF := by rw [Op.WF]; decide
    have hl : (argsort [0, 1]).length = 2 := by decide
    refine ⟨_, (Op.fwd_is _ hp).dot M ?_, ?_, hM.2⟩
    · rw [Op.den, hM.1]; exact hl.symm
    · rw [Op.den]; exact hl
  obtain ⟨Y, y1, y2, y3⟩ := h
  show (do
    let Y ← Op.at (.perm (argsort [0, 1])) (.arr M)
    Op.at Y (.perm [0, 1])) = _
  have : Op.at (.perm (argsort [0, 1])) (.arr M) = .ok (.arr Y) := by
    show (do let y ← (Op.perm (argsort [0, 1]) : Op ℚ).dot M.toArr; let Y ← DMat.ofArr y; Except.ok (Op.arr Y)) = _
    rw [y1]
    show (do let Y ← DMat.ofArr Y.toArr; Except.ok (Op.arr Y)) = _
    rw [Op.ofArr_toArr]; rfl
  rw [this]
  rfl

end

theorem Interp.ofMat_dual {R : Type} [CommRing R] {W : World} {g : Gid} {M D : DMat R} (hM : M.IsSq (W.d g)) (hD : D.IsSq (W.d g))
    (h : D.transpose.mul M = DMat.one (W.d g)) (ho : W.orth g = false) : (Interp.ofMat W g M D).Dual W where
  toSized := Interp.ofMat_sized hM hD
  inv k g' := by
    by_cases hk : k = 0 ∧ some g' = some g
    · obtain ⟨rfl, hg⟩ := hk; cases hg; simpa [Interp.ofMat, LinOp.sem, World.asize] using h
    · simp only [Interp.ofMat, hk, if_false, LinOp.sem, DMat.transpose_one]; exact DMat.one_mul' (DMat.one _) rfl
  orth k g' hg' := by
    have hk : ¬ (k = 0 ∧ some g' = some g) := by rintro ⟨-, e⟩; cases e; rw [ho] at hg'; cases hg'
    simp only [Interp.ofMat, hk, if_false, LinOp.sem, DMat.transpose_one]; exact DMat.one_mul' (DMat.one _) rfl

/-- A shear of group `1` of the example environment, as the arrays a user passes. -/
def shearOp (x : ℚ) : OpInterp ℚ := ⟨fun k g => .arr ((Interp.ofMat exW 1 (sq2 1 x 0 1) (sq2 1 0 (-x) 1)).vec k g).sem⟩

theorem shear_dual {F : Type} [CommRing F] (x : F) : (Interp.ofMat exW 1 (sq2 1 x 0 1) (sq2 1 0 (-x) 1)).Dual exW := by
  refine Interp.ofMat_dual ⟨rfl, rfl⟩ ⟨rfl, rfl⟩ ?_ rfl
  refine DMat.ext rfl rfl fun i j hi hj => ?_
  change i < 2 at hi
  change j < 2 at hj
  rw [DMat.mul_e hi hj]
  interval_cases i <;> interval_cases j <;> simp [sq2, DMat.of, DMat.transpose, DMat.one, Finset.sum_range_succ, exW]

/-- Shears acting on `2*V.T**2 + V*V.T + Scalar`, a representation of a group that is not orthogonal: the hypotheses of
`C73_expressions_rho` hold. -/
example (x : ℚ) : ∃ (inv : DMat ℚ → Py (DMat ℚ)) (r : Rep) (X : Op ℚ),
    Expr.eval exW 1 (.add (.add (.nsmul 2 (.pow (.dual (.rep 0)) 2)) (.mul (.rep 0) (.dual (.rep 0)))) .scalar) = .ok r ∧
      r.rhoOp inv (shearOp x) = .ok X ∧ X.shape = (13, 13) := by
  obtain ⟨inv, hinv⟩ := invSpec_exists ℚ
  have h1 : (Expr.add (.add (.nsmul 2 (.pow (.dual (.rep 0)) 2)) (.mul (.rep 0) (.dual (.rep 0)))) .scalar).OK exW 1 := by
    simp [Expr.OK, World.asize, exW]
  have h2 : (Expr.add (.add (.nsmul 2 (.pow (.dual (.rep 0)) 2)) (.mul (.rep 0) (.dual (.rep 0)))) .scalar).bound exW 1 ≤ 1000 := by
    simp [Expr.bound, Expr.dim, World.asize, exW]
  obtain ⟨r, r1, ⟨X, x1, x2⟩, -⟩ := C73_expressions_rho (exW_single 1 1000 (by omega)) _ h1 h2 hinv (shear_dual x) (I := shearOp x)
    ⟨fun k g => by simp only [shearOp, Op.WF], fun k g => by simp only [shearOp, Op.den]⟩ (fun k g _ => .inl rfl)
  obtain ⟨r', s1, s2, s3, s4, s5⟩ := Expr.eval_good (exW_single 1 1000 (by omega)) _ h1 h2
  obtain rfl : r = r' := by rw [r1] at s1; exact Except.ok.inj s1
  refine ⟨inv, r, X, r1, x1, ?_⟩
  rw [x2.shape, ← s5 ℚ _ (shear_dual x)]
  have := Rep.mat_sq (shear_dual x).toSized s2
  rw [this.1, this.2, s4]
  simp [Expr.dim, World.asize, exW]

/-! ### C20, for the operator objects -/

section
variable {F : Type} [Field F] [StarRing F] [DecidableEq F] {W : World} {inv : DMat F → Py (DMat F)} {gens : Gid → GenSet F}

/-- **C73.** `constraint_matrix()` builds an operator for which `C@v`, `C@V` and `C.to_dense()` are those of one matrix, and that
matrix annihilates exactly the vectors with `rho(h)v = v` and `drho(A)v = 0` for all generators. -/
theorem C73_constraint_matrix (hinv : Op.InvSpec inv) (hs : GenSet.Dual W gens) {f : Fac} (hf : f.WF W) (hd : f.Deep W) {g : Gid} (hg : f.G = some g)
    {disc lie : List (OpInterp F)} (h1 : Forall₂ (fun I J => I.Of J ∧ I.Inv W) disc (gens g).disc)
    (h2 : Forall₂ (fun I J => I.Of J ∧ I.Rev W) lie (gens g).lie) :
    ∃ X C, f.constraintOp inv W disc lie = .ok X ∧ X.Computes C ∧ C.cols = f.size W ∧
      ∀ v : List F, v.length = f.size W → (X.dot ⟨[f.size W], v⟩ = .ok ⟨[C.rows], replicate C.rows 0⟩ ↔
        (∀ h ∈ (gens g).disc, (f.rho h).sem.mulVec v = v) ∧
        ∀ A ∈ (gens g).lie, (f.drho A).sem.mulVec v = replicate (f.size W) 0) := by
  obtain ⟨X, C, x1, x2, x3⟩ := Fac.constraintOp_ok hinv hs hf hd hg h1 h2
  obtain ⟨C', c1, c2, c3⟩ := C20_constraint_matrix hs.sized hf hg
  have : C' = C := by
    have : f.constraintMatrix W gens = .ok C' := c1
    rw [x2] at this; exact (Except.ok.inj this).symm
  subst this
  refine ⟨X, C'.sem, x1, x3.computes, c2, fun v hv => ?_⟩
  rw [← c3 v hv]
  have := x3.computes.vec v (hv.trans c2.symm)
  rw [c2] at this
  rw [this]
  simp

end

/-! ### C74 -/

section
variable {W : World} {R : Type} [CommRing R] [StarRing R] {gens : Gid → GenSet R} {solve : ℕ → LinOp R → Py (DMat R)}

/-- **C74.** After any history of calls, what `equivariant_basis()` returns is the matrix of an orthonormal basis of the invariant
vectors, as an array or an operator: `Q.shape`, `densify(Q)`, `Q@c` and `Q@C` are those of the matrix (representations without products
over several groups). -/
theorem C74_basis (hs : GenSet.Sized W gens) (hsol : SolverOK W gens solve) (hrun : SolverRuns W gens solve) {r : Rep} (hw : r.WF W)
    (hk : ∀ d, Key.dprod d ∉ r.keys W) (calls : List SolveCall) :
    ∃ X Q, (r.basisOp W gens solve (session W gens solve calls freshSt)).1 = .ok X ∧ X.Computes Q ∧
      OrthoBasis (r.size W) Q (r.Fixed W gens) := by
  have hone : r.OnePerGroup := by
    match r, hw, hk with
    | .key .scalar, _, _ => trivial
    | .key (.fac f), _, _ => trivial
    | .key (.dprod d), _, hk => exact absurd (by simp [Rep.keys, Key.base]) (hk ⟨d.c, range (d.size W)⟩)
    | .sum s, hw, hk =>
      intro k hk'
      match k, hk' with
      | .scalar, _ => trivial
      | .fac f, _ => trivial
      | .dprod d, hk' => exact absurd hk' (hk d)
  obtain ⟨h1, h2⟩ := C21_equivariant_basis hs hsol hw hone calls
  obtain ⟨L, hL⟩ := h2 hrun
  obtain ⟨X, x1, x2⟩ := (Rep.basis_sim hw hk).out hL
  exact ⟨X, L.sem, x1, x2.computes, h1 L hL⟩

/-- **C74.** `equivariant_basis()` of a product over several groups, if every factor has invariant vectors.  (If two factors have none, the
operator has the right shape but cannot be applied: `C70_counterexample_empty`.) -/
theorem C74_basis_direct (hs : GenSet.Sized W gens) (hsol : SolverOK W gens solve) (hrun : SolverRuns W gens solve) {d : DRep} (hw : d.WF W)
    (hl : 2 ≤ d.c.keys.length) (hone : (d.c.keys.map Fac.G).Nodup) (calls : List SolveCall)
    (h0 : ∀ Qs, (solveList (Fac.basis W gens solve) d.c.keys (session W gens solve calls freshSt)).1 = .ok Qs → ∀ Q ∈ Qs, Q.cols ≠ 0) :
    ∃ X Q, (Rep.basisOp W gens solve (.key (.dprod d)) (session W gens solve calls freshSt)).1 = .ok X ∧ X.Computes Q ∧
      OrthoBasis (d.size W) Q (Rep.Fixed W gens (.key (.dprod d))) := by
  obtain ⟨h1, h2⟩ := C21_equivariant_basis (r := .key (.dprod d)) hs hsol hw hone calls
  obtain ⟨L, hL⟩ := h2 hrun
  have hL' : ((Key.dprod d).basis W gens solve (session W gens solve calls freshSt)).1 = .ok L := hL
  obtain ⟨Qs, hQs⟩ : ∃ Qs, (solveList (Fac.basis W gens solve) d.c.keys (session W gens solve calls freshSt)).1 = .ok Qs := by
    simp only [Key.basis, solveMap] at hL'
    rcases hm : solveList (Fac.basis W gens solve) d.c.keys (session W gens solve calls freshSt) with ⟨a, τ⟩
    rw [hm] at hL'
    cases a with
    | error e => simp at hL'
    | ok Qs => exact ⟨Qs, rfl⟩
  have hrows : Forall₂ (fun (f : Fac) Q => Q.rows = f.size W) d.c.keys Qs := by
    obtain ⟨Qs', e, h3, h4⟩ := (SolveSim.list (Rel := fun (f : Fac) (Q Q' : DMat R) => Q' = Q ∧ Q.rows = f.size W) (f := Fac.basis W gens solve)
      (f' := Fac.basis W gens solve) (l := d.c.keys) fun f hf => SolveSim.refl fun σ Q hQ => Fac.basis_rows (hw.key f hf) hQ).out hQs
    rw [hQs] at e
    obtain rfl := Except.ok.inj e
    have : Qs.zip Qs = Qs.map fun Q => (Q, Q) := by clear e h3 h4 hQs; induction Qs with | nil => rfl | cons _ _ ih => simp [ih]
    rw [this, forall₂_map_right_iff] at h3
    exact h3.imp fun _ _ h => h.2
  obtain ⟨X, L', x1, x2, x3⟩ := DRep.basis_out hw hl hQs (h0 Qs hQs) hrows
  rw [x2] at hL'
  obtain rfl := Except.ok.inj hL'
  exact ⟨X, L'.sem, x1, x3.computes, h1 L' hL⟩

/-- **C74.** `equivariant_projector()` over the reals: `P.shape`, `densify(P)`, `P@v` and `P@V` are those of the orthogonal projector
onto the invariant vectors, including products over several groups. -/
theorem C74_projector (hstar : ∀ x : R, star x = x) (hs : GenSet.Sized W gens) (hsol : SolverOK W gens solve) (hrun : SolverRuns W gens solve)
    {r : Rep} (hw : r.WF W) (hd : ∀ k ∈ r.keys W, k.Deep W) (hone : r.OnePerGroup) (calls : List SolveCall) :
    ∃ X P, (r.projectorOp W gens solve (session W gens solve calls freshSt)).1 = .ok X ∧ X.Computes P ∧
      IsProjector (r.size W) P (r.Fixed W gens) := by
  obtain ⟨h1, h2⟩ := C22_equivariant_projector hstar hs hsol hw hone calls
  obtain ⟨L, hL⟩ := h2 hrun
  obtain ⟨X, x1, x2⟩ := (Rep.projector_sim hstar hw hd).out hL
  exact ⟨X, L.sem, x1, x2.computes, h1 L hL⟩

/-- **C74.** For a representation written as an expression, in terms of results only: `Q@c` is an invariant vector whatever the
coefficients `c`, every invariant vector is `Q@c` for some `c`, and only one; and `P@v` is invariant whatever `v`, and is `v` if `v` is. -/
theorem C74_expressions {g : Gid} {N : ℕ} (hW : W.SingleOK g N) (e : Expr) (h : e.OK W g) (hN : e.bound W g ≤ N)
    (hstar : ∀ x : R, star x = x) (hd : GenSet.Dual W gens) (hsol : SolverOK W gens solve) (hrun : SolverRuns W gens solve)
    (calls : List SolveCall) :
    ∃ r X Y m, e.eval W g = .ok r ∧ (r.basisOp W gens solve (session W gens solve calls freshSt)).1 = .ok X ∧
      (r.projectorOp W gens solve (session W gens solve calls freshSt)).1 = .ok Y ∧
      (∀ c : List R, c.length = m → ∃ v, X.dot ⟨[m], c⟩ = .ok ⟨[e.dim W g], v⟩ ∧ v.length = e.dim W g ∧
        (∀ x ∈ (gens g).disc, (e.den g x).1.mulVec v = v) ∧ ∀ A ∈ (gens g).lie, (e.dden g A).1.mulVec v = replicate v.length 0) ∧
      (∀ v : List R, v.length = e.dim W g → ((∀ x ∈ (gens g).disc, (e.den g x).1.mulVec v = v) ∧
        ∀ A ∈ (gens g).lie, (e.dden g A).1.mulVec v = replicate v.length 0) →
        Y.dot ⟨[e.dim W g], v⟩ = .ok ⟨[e.dim W g], v⟩ ∧ ∃! c : List R, c.length = m ∧ X.dot ⟨[m], c⟩ = .ok ⟨[e.dim W g], v⟩) ∧
      ∀ v : List R, v.length = e.dim W g → ∃ w, Y.dot ⟨[e.dim W g], v⟩ = .ok ⟨[e.dim W g], w⟩ ∧ w.length = e.dim W g ∧
        (∀ x ∈ (gens g).disc, (e.den g x).1.mulVec w = w) ∧ ∀ A ∈ (gens g).lie, (e.dden g A).1.mulVec w = replicate w.length 0 := by
  obtain ⟨r, r1, r2, r3, r4, -⟩ := e.eval_good hW h hN
  obtain ⟨X, Q, x1, x2, x3⟩ := C74_basis hd.sized hsol hrun r2 (fun d hd => absurd (r3 _ hd).2 (by simp)) calls
  obtain ⟨Y, P, y1, y2, y3⟩ := C74_projector hstar hd.sized hsol hrun r2 (fun k hk => (r3 k hk).deep) (Rep.single_onePerGroup r2 r3) calls
  rw [r4] at x3 y3
  have hf : ∀ {v : List R}, v.length = e.dim W g → (r.Fixed W gens v ↔ _) := fun hv => Expr.fixed_iff hW e h hN r1 hd hv
  refine ⟨r, X, Y, Q.cols, r1, x1, y1, fun c hc => ?_, fun v hv hfix => ?_, fun v hv => ?_⟩
  · have hl : (Q.mulVec c).length = e.dim W g := by rw [DMat.length_mulVec, x3.rows]
    have := x2.vec c hc
    rw [x3.rows] at this
    exact ⟨_, this, hl, (hf hl).1 ((x3.span _ hl).2 ⟨c, hc, rfl⟩)⟩
  · have hF := (hf hv).2 hfix
    constructor
    · have := y2.vec v (hv.trans y3.sq.2.symm)
      rwa [y3.sq.1, y3.sq.2, (y3.fix v hv).1 hF] at this
    · obtain ⟨c, c1, c2⟩ := (x3.span v hv).1 hF
      refine ⟨c, ⟨c1, ?_⟩, fun c' hc' => ?_⟩
      · have := x2.vec c c1
        rwa [x3.rows, c2] at this
      · have h1 := x2.vec c' hc'.1
        rw [hc'.2, x3.rows] at h1
        injection h1 with h1
        injection h1 with _ h1
        have inj : ∀ d : List R, d.length = Q.cols → Q.conjTranspose.mulVec (Q.mulVec d) = d := fun d hd' => by
          rw [← DMat.mulVec_mul _ _ _ (by simp), x3.orth]; exact DMat.mulVec_one _ hd'
        rw [← inj c' hc'.1, ← h1, ← c2, inj c c1]
  · have hl : (P.mulVec v).length = e.dim W g := by rw [DMat.length_mulVec, y3.sq.1]
    have := y2.vec v (hv.trans y3.sq.2.symm)
    rw [y3.sq.1, y3.sq.2] at this
    exact ⟨_, this, hl, (hf hl).1 (y3.range v hv)⟩

end

/-- The group generated by a shear, acting on `V*V.T + V`, with an exact solver: the hypotheses of `C74_expressions` hold. -/
example : ∃ (gens : Gid → GenSet ℝ) (solve : ℕ → LinOp ℝ → Py (DMat ℝ)) (r : Rep) (X : Op ℝ),
    Expr.eval exW 1 (.add (.mul (.rep 0) (.dual (.rep 0))) (.rep 0)) = .ok r ∧ (gens 1).disc ≠ [] ∧
      (r.basisOp exW gens solve freshSt).1 = .ok X := by
  obtain ⟨s, h1, h2⟩ := exists_solver ℝ
  obtain ⟨r, X, -, -, r1, x1, -⟩ := C74_expressions (exW_single 1 1000 (by omega)) (.add (.mul (.rep 0) (.dual (.rep 0))) (.rep 0))
    (by simp [Expr.OK, World.asize, exW]) (by simp [Expr.bound, Expr.dim, World.asize, exW]) (fun x : ℝ => star_trivial x)
    (gens := fun g => if g = 1 then ⟨[Interp.ofMat exW 1 (sq2 1 1 0 1) (sq2 1 0 (-1) 1)], []⟩ else ⟨[], []⟩)
    (by
      intro g
      dsimp only
      split
      · refine ⟨fun x hx => ?_, by simp⟩
        rw [mem_singleton] at hx
        subst hx
        exact shear_dual 1
      · simp) (solve := fun _ => s) (h1 _ _) (fun _ _ C _ => h2 C) []
  exact ⟨_, _, r, X, r1, by simp, x1⟩

end Verif
