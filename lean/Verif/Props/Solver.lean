import Verif.Lemmas.SolverExists
import Verif.Model.GroupRepr
import Verif.Model.GroupInit
import Verif.Props.ExampleWorld
import Mathlib.Data.Complex.Basic
import Mathlib.Analysis.Complex.Basic

/-!
# The solver: constraint matrices, equivariant bases and projectors (C20–C24)

`solve` stands for the numerical null space routine; `SolverOK W gens solve` says that what it
returns on the constraint matrices that occur is an orthonormal
basis of the null space.  `calls` is the history of the process.
-/
namespace Verif
open List
variable {W : World} {R : Type} [CommRing R] {gens : Gid → GenSet R} {solve : ℕ → LinOp R → Py (DMat R)}

/-! ### C20 -/

/-- **C20.** For an atom, its dual or a tensor product of a group, `constraint_matrix()` annihilates `v` exactly when
`rho(h)v = v` for every discrete generator and `drho(A)v = 0` for every Lie algebra generator. -/
theorem C20_constraint_matrix (hs : GenSet.Sized W gens) {f : Fac} (hf : f.WF W) {g : Gid} (hg : f.G = some g) :
    ∃ C, Rep.constraintMatrix W gens (.key (.fac f)) = .ok C ∧ C.sem.cols = f.size W ∧
      ∀ v : List R, v.length = f.size W → (C.sem.mulVec v = replicate C.sem.rows 0 ↔
        (∀ h ∈ (gens g).disc, (f.rho h).sem.mulVec v = v) ∧
        ∀ A ∈ (gens g).lie, (f.drho A).sem.mulVec v = replicate (f.size W) 0) := by
  obtain ⟨C, h1, h2, h3⟩ := Fac.constraint_spec hs hf hg
  exact ⟨C, h1, h2, fun v hv => by rw [h3 v hv, FixedOne, hv]⟩

/-- **C20.** With no generators every vector satisfies the constraints. -/
theorem C20_no_generators (hs : GenSet.Sized W gens) {f : Fac} (hf : f.WF W) {g : Gid} (hg : f.G = some g)
    (h0 : (gens g).disc = [] ∧ (gens g).lie = []) :
    ∃ C, Rep.constraintMatrix W gens (.key (.fac f)) = .ok C ∧
      ∀ v : List R, v.length = f.size W → C.sem.mulVec v = replicate C.sem.rows 0 := by
  obtain ⟨C, h1, h2, h3⟩ := C20_constraint_matrix hs hf hg
  exact ⟨C, h1, fun v hv => (h3 v hv).2 ⟨by simp [h0.1], by simp [h0.2]⟩⟩

/-- **C20.** On a direct sum or a product over several groups `constraint_matrix()` raises `AttributeError`: these
classes have no attribute `G`. -/
theorem C20_composite_raises (s : SRep) (d : DRep) :
    Rep.constraintMatrix W gens (.sum s) = .error .attribute ∧ Rep.constraintMatrix W gens (.key (.dprod d)) = .error .attribute :=
  ⟨rfl, rfl⟩

/-! ### C21 -/

section
variable [StarRing R]

theorem cacheOK_of_history (hsol : SolverOK W gens solve) (calls : List SolveCall) :
    CacheOK W gens (session W gens solve calls freshSt) :=
  fresh_keeps (P := fun C Q => OrthoBasis C.sem.cols Q fun v => C.sem.mulVec v = replicate C.sem.rows 0)
    (fun n f C Q hC h => hsol n f C Q hC h) calls

/-- **C21.** After any history of calls, the matrix returned by `equivariant_basis()` has orthonormal columns which
span exactly the invariant vectors, for atoms, tensor products, direct sums and products over several groups; and it
does return, unless the numerical routine raises. -/
theorem C21_equivariant_basis (hs : GenSet.Sized W gens) (hsol : SolverOK W gens solve) {r : Rep} (hw : r.WF W) (hone : r.OnePerGroup)
    (calls : List SolveCall) :
    (∀ L, (r.equivariantBasis W gens solve (session W gens solve calls freshSt)).1 = .ok L →
      OrthoBasis (r.size W) L.sem (r.Fixed W gens)) ∧
    (SolverRuns W gens solve → ∃ L, (r.equivariantBasis W gens solve (session W gens solve calls freshSt)).1 = .ok L) :=
  ⟨(Rep.basis_meets hs hsol hw hone _ (cacheOK_of_history hsol calls)).2, fun ht => Rep.basis_runs hs ht hw _⟩

/-- **C21.** For a representation written as an expression: the columns are an orthonormal basis of the vectors fixed
by every discrete generator and annihilated by every Lie algebra generator, acting as the expression says. -/
theorem C21_expressions {g : Gid} {N : ℕ} (hW : W.SingleOK g N) (e : Expr) (h : e.OK W g) (hN : e.bound W g ≤ N)
    (hd : GenSet.Dual W gens) (hsol : SolverOK W gens solve) (htot : SolverRuns W gens solve) (calls : List SolveCall) :
    ∃ r L, e.eval W g = .ok r ∧ (r.equivariantBasis W gens solve (session W gens solve calls freshSt)).1 = .ok L ∧
      OrthoBasis (e.dim W g) L.sem fun v => (∀ x ∈ (gens g).disc, (e.den g x).1.mulVec v = v) ∧
        ∀ A ∈ (gens g).lie, (e.dden g A).1.mulVec v = replicate v.length 0 := by
  obtain ⟨r, hr, hwf, hk, hsz, -⟩ := e.eval_good hW h hN
  obtain ⟨h1, h2⟩ := C21_equivariant_basis hd.sized hsol hwf (Rep.single_onePerGroup hwf hk) calls
  obtain ⟨L, hL⟩ := h2 htot
  have ho := h1 L hL
  rw [hsz] at ho
  exact ⟨r, L, hr, hL, ho.rows, ho.orth, fun v hv => by rw [← ho.span v hv, Expr.fixed_iff hW e h hN hr hd hv]⟩

/-! ### C22 -/

theorem OrthoBasis.isProjector {n : ℕ} {Q : DMat R} {F : List R → Prop} (h : OrthoBasis n Q F) (hreal : Q.IsReal) :
    IsProjector n (Q.mul Q.transpose) F := by
  rw [← hreal.transpose_eq]
  refine ⟨⟨h.rows, h.rows⟩, ?_, ?_, fun v hv => h.proj hv, fun w hw => ?_⟩
  · rw [DMat.mul_assoc' _ _ _ (by simp), ← DMat.mul_assoc' Q.conjTranspose _ _ (by simp), h.orth, DMat.one_mul' _ (by simp)]
  · rw [DMat.conjTranspose_mul _ _ (by simp), DMat.conjTranspose_conjTranspose]
  · rw [DMat.mulVec_mul _ _ _ (by simp)]
    exact (h.span _ (by simp [h.rows])).2 ⟨_, by simp, rfl⟩

/-- **C22.** Over the reals (any commutative ring with trivial conjugation), after any history of calls,
`equivariant_projector()` is the orthogonal projector onto the invariant vectors. -/
theorem C22_equivariant_projector (hstar : ∀ x : R, star x = x) (hs : GenSet.Sized W gens) (hsol : SolverOK W gens solve) {r : Rep}
    (hw : r.WF W) (hone : r.OnePerGroup) (calls : List SolveCall) :
    (∀ L, (r.equivariantProjector W gens solve (session W gens solve calls freshSt)).1 = .ok L →
      IsProjector (r.size W) L.sem (r.Fixed W gens)) ∧
    (SolverRuns W gens solve → ∃ L, (r.equivariantProjector W gens solve (session W gens solve calls freshSt)).1 = .ok L) := by
  refine ⟨fun L hL => ?_, fun ht => Rep.projector_runs hs ht hw _⟩
  obtain ⟨Q, hQ, e⟩ := (Rep.projector_meets hs hsol hw hone _ (cacheOK_of_history hsol calls)).2 L hL
  rw [e]
  exact hQ.isProjector fun i j => hstar _

/-! ### C23 -/

/-- **C23.** (partial) Over the complex numbers the projector is right if all solutions returned by the numerical
routine have real entries.  Missing: complex solutions, for which the claim is false (`C23_counterexample`): `.H` of a
dense operator does not conjugate. -/
theorem C23_real_solutions_partial (hs : GenSet.Sized W gens) (hsol : SolverOK W gens solve)
    (hreal : ∀ n (f : Fac) C Q, f.constraintMatrix W gens = .ok C → solve n C = .ok Q → Q.IsReal) {r : Rep} (hw : r.WF W) (hone : r.OnePerGroup) (calls : List SolveCall) :
    ∀ L, (r.equivariantProjector W gens solve (session W gens solve calls freshSt)).1 = .ok L →
      IsProjector (r.size W) L.sem (r.Fixed W gens) := by
  intro L hL
  have hc : ∀ e ∈ (session W gens solve calls freshSt).cache, e.2.IsReal := fun e he => by
    obtain ⟨C, -, h⟩ := fresh_keeps (W := W) (gens := gens) (P := fun _ Q => Q.IsReal) hreal calls e he
    exact h
  obtain ⟨Q, hQ, e⟩ := (Rep.projector_T closed_real hs hsol hreal hw hone _ (cacheOK_of_history hsol calls) hc).2 L hL
  rw [e]
  exact hQ.1.isProjector hQ.2

end

/-- The group element with matrix `M` on `V(g)` and `D` on `V(g).T`, the identity on everything else. -/
def Interp.ofMat (W : World) (g : Gid) (M D : DMat R) : Interp R where
  vec k g' := if k = 0 ∧ g' = some g then .lazy M else .eye (match g' with | some g' => W.asize k g' | none => 0)
  dual k g' := if k = 0 ∧ g' = some g then .lazy D else .eye (match g' with | some g' => W.asize k g' | none => 0)

theorem Interp.ofMat_sized {g : Gid} {M D : DMat R} (hM : M.IsSq (W.d g)) (hD : D.IsSq (W.d g)) : (Interp.ofMat W g M D).Sized W where
  vec k g' := by
    by_cases h : k = 0 ∧ some g' = some g
    · obtain ⟨rfl, h⟩ := h; cases h; simpa [Interp.ofMat, LinOp.sem, World.asize] using hM
    · simp only [Interp.ofMat, h, if_false]; exact ⟨rfl, rfl⟩
  dual k g' := by
    by_cases h : k = 0 ∧ some g' = some g
    · obtain ⟨rfl, h⟩ := h; cases h; simpa [Interp.ofMat, LinOp.sem, World.asize] using hD
    · simp only [Interp.ofMat, h, if_false]; exact ⟨rfl, rfl⟩

/-- A `2 × 2` matrix. -/
def sq2 (a b c d : R) : DMat R := DMat.of 2 2 fun i j => if i = 0 then (if j = 0 then a else b) else (if j = 0 then c else d)

theorem sq2_mulVec (a b c d x y : R) : (sq2 a b c d).mulVec [x, y] = [a * x + b * y, c * x + d * y] := by
  refine DMat.vec_ext (by simp [sq2]) fun i hi => ?_
  have hi : i < 2 := by simpa [sq2] using hi
  rw [DMat.getD_mulVec (by exact hi)]
  interval_cases i <;> simp [sq2, DMat.of, Finset.sum_range_succ]

/-- The group of order two generated by `σ_y = [[0,-i],[i,0]]`, in place of group `1` of the example environment. -/
noncomputable def sigmaY : Gid → GenSet ℂ := fun g =>
  if g = 1 then ⟨[Interp.ofMat exW 1 (sq2 0 (-Complex.I) Complex.I 0) (sq2 0 Complex.I (-Complex.I) 0)], []⟩ else ⟨[], []⟩

theorem sigmaY_sized : GenSet.Sized exW sigmaY := by
  intro g
  unfold sigmaY
  split
  · refine ⟨fun h hh => ?_, by simp⟩
    rw [mem_singleton] at hh
    subst hh
    exact Interp.ofMat_sized ⟨rfl, rfl⟩ ⟨rfl, rfl⟩
  · simp

/-- The representation `V(G)` of group `1`. -/
def repV1 : Rep := .key (.fac (.atom (.vec 0 (some 1))))

theorem repV1_wf : repV1.WF exW := rfl

theorem len2 {v : List R} (h : v.length = 2) : ∃ x y, v = [x, y] := by
  match v, h with
  | [x, y], _ => exact ⟨x, y, rfl⟩

theorem sigmaY_fixed {v : List ℂ} (hv : v.length = 2) : repV1.Fixed exW sigmaY v ↔ ∃ x, v = [x, x * Complex.I] := by
  obtain ⟨x, y, rfl⟩ := len2 hv
  have h1 : repV1.Fixed exW sigmaY [x, y] ↔ (sq2 0 (-Complex.I) Complex.I 0).mulVec [x, y] = [x, y] := by
    unfold Rep.Fixed FixedBy
    constructor
    · intro h
      have := (h 1).1 _ (by simp only [sigmaY, if_true]; exact mem_singleton.2 rfl)
      exact this
    · intro h g
      unfold sigmaY
      split
      · rename_i hg
        subst hg
        refine ⟨fun x hx => ?_, by simp⟩
        rw [mem_singleton] at hx
        subst hx
        exact h
      · simp
  rw [h1, sq2_mulVec]
  simp only [cons.injEq, and_true, zero_mul, zero_add, add_zero]
  constructor
  · rintro ⟨-, h⟩
    exact ⟨x, rfl, by rw [mul_comm]; exact h.symm⟩
  · rintro ⟨z, rfl, rfl⟩
    refine ⟨?_, by ring⟩
    have : Complex.I * Complex.I = -1 := Complex.I_mul_I
    linear_combination (-x) * this

/-- **C23 is false**: for the group generated by `σ_y` and whatever exact numerical routine, `equivariant_projector()`
sends the invariant vector `(1, i)` to zero and is not idempotent. -/
theorem C23_counterexample (solve : ℕ → LinOp ℂ → Py (DMat ℂ)) (hsol : SolverOK exW sigmaY solve) (L : LinOp ℂ)
    (hL : (repV1.equivariantProjector exW sigmaY solve freshSt).1 = .ok L) :
    repV1.Fixed exW sigmaY [1, Complex.I] ∧ L.sem.mulVec [1, Complex.I] = [0, 0] ∧ L.sem.mul L.sem ≠ L.sem := by
  have h1 : repV1.Fixed exW sigmaY [1, Complex.I] := (sigmaY_fixed rfl).2 ⟨1, by simp⟩
  obtain ⟨Q, hQ, e⟩ := (Rep.projector_meets sigmaY_sized hsol repV1_wf trivial _ (cacheOK_of_history hsol [])).2 L hL
  have hr : Q.rows = 2 := hQ.rows
  -- the columns of `Q` are multiples of `(1, i)`, which is orthogonal to itself without conjugation
  have hcol : ∀ j < Q.cols, Q.e 1 j = Q.e 0 j * Complex.I := by
    intro j hj
    have hf := (hQ.span (Q.mulVec (DMat.col (DMat.one Q.cols) j)) (by simp; exact hr)).2 ⟨_, by simp, rfl⟩
    rw [DMat.mulVec_col _ _ (by simp) (by simpa using hj), DMat.mul_one' _ rfl] at hf
    obtain ⟨x, hx⟩ := (sigmaY_fixed (by simp; exact hr)).1 hf
    have e0 := congrArg (fun l => l.getD 0 0) hx
    have e1 := congrArg (fun l => l.getD 1 0) hx
    simp only [getD_cons_zero, getD_cons_succ] at e0 e1
    rw [DMat.getD_col _ (by omega)] at e0 e1
    rw [e0, e1]
  have hz : Q.transpose.mul Q = DMat.zero Q.cols Q.cols := by
    refine DMat.ext rfl rfl fun i j hi hj => ?_
    have hi : i < Q.cols := hi
    have hj : j < Q.cols := hj
    rw [DMat.mul_e (A := Q.transpose) (B := Q) hi hj, DMat.transpose_cols, hr, DMat.zero_e]
    simp only [Finset.sum_range_succ, Finset.range_zero, Finset.sum_empty, zero_add, DMat.transpose_e]
    rw [hcol i hi, hcol j hj]
    have : Complex.I * Complex.I = -1 := Complex.I_mul_I
    linear_combination (Q.e 0 i * Q.e 0 j) * this
  have hv : L.sem.mulVec [1, Complex.I] = [0, 0] := by
    obtain ⟨a, ha, ea⟩ := (hQ.span [1, Complex.I] rfl).1 h1
    rw [e, ← ea, DMat.mulVec_mul _ _ _ (by simp), ← DMat.mulVec_mul Q.transpose _ _ (by simp), hz, DMat.zero_mulVec, DMat.mulVec_replicate_zero, hr]
    rfl
  refine ⟨h1, hv, fun hidem => ?_⟩
  have hLz : L.sem.mul L.sem = DMat.zero 2 2 := by
    rw [e, DMat.mul_assoc' _ _ _ (by simp), ← DMat.mul_assoc' Q.transpose _ _ (by simp), hz]
    refine DMat.ext hr (by simpa using hr) fun i j hi hj => ?_
    rw [DMat.mul_e (by simpa using hi) (by simpa using hj), DMat.zero_e]
    refine Finset.sum_eq_zero fun k hk => ?_
    rw [DMat.mul_e (by simpa using hk) (by simpa using hj)]
    simp [DMat.zero_e]
  -- then `Q Qᵀ = 0`, hence `Qᵀ = Qᴴ Q Qᵀ = 0`, and nothing is in the span
  have hP : Q.mul Q.transpose = DMat.zero 2 2 := by rw [← e, ← hidem, hLz]
  have hQt : Q.transpose.mulVec = fun v => replicate Q.cols 0 := by
    have : Q.transpose = Q.conjTranspose.mul (DMat.zero 2 2) := by
      rw [← hP, ← DMat.mul_assoc' _ _ _ (by simp), hQ.orth, DMat.one_mul' _ (by simp)]
    funext v
    rw [this, DMat.mulVec_mul _ _ _ (by simpa using hr), DMat.zero_mulVec]
    have h2 := DMat.mulVec_replicate_zero Q.conjTranspose 2
    rw [h2]; rfl
  obtain ⟨a, ha, ea⟩ := (hQ.span [1, Complex.I] rfl).1 h1
  have hQ0 : ∀ i j, Q.e i j = 0 := by
    intro i j
    by_cases hij : i < Q.rows ∧ j < Q.cols
    · have := congrFun hQt (DMat.col (DMat.one Q.rows) i)
      rw [DMat.mulVec_col _ _ (by simp) (by simpa using hij.1), DMat.mul_one' _ (by simp)] at this
      have := congrArg (fun l => l.getD j 0) this
      beta_reduce at this
      rw [DMat.getD_col _ (by simpa using hij.2), DMat.transpose_e] at this
      rw [this]; simp [getD_eq_getElem?_getD, hij.2]
    · exact Q.out i j hij
  have := congrArg (fun l => l.getD 0 0) ea
  beta_reduce at this
  rw [DMat.getD_mulVec (by omega)] at this
  simp [hQ0] at this

/-- There is an exact numerical routine, and with it the call of **C23** returns. -/
example : ∃ solve : ℕ → LinOp ℂ → Py (DMat ℂ), SolverOK exW sigmaY solve ∧ ∃ L, (repV1.equivariantProjector exW sigmaY solve freshSt).1 = .ok L := by
  obtain ⟨s, h1, h2⟩ := exists_solver ℂ
  exact ⟨fun _ => s, h1 _ _, Rep.projector_runs sigmaY_sized (fun _ _ C _ => h2 C) repV1_wf _⟩

/-! ### C24 -/

/-- **C24.** (partial) If the numerical routine is deterministic and groups that compare equal have equal generators,
every call returns (or raises) what it would in a fresh process, after any history.  Missing: groups that compare equal
but have different generators (`C24_counterexample`). -/
theorem C24_cache_transparent_partial (s : LinOp R → Py (DMat R)) (calls : List SolveCall) (c : SolveCall) :
    (c.run W gens (fun _ => s) (session W gens (fun _ => s) calls freshSt)).1 = (c.run W gens (fun _ => s) freshSt).1 := by
  obtain ⟨-, o, ho⟩ := c.transparent (W := W) (gens := gens) (s := s)
  rw [ho _ (fresh_keeps (solve := fun _ => s) (P := fun C Q => s C = .ok Q) (fun _ _ _ _ _ h => h) calls), ho _ fun e he => by simp [freshSt] at he]

/-- **C24.** With a randomised routine later calls still return correct bases, and a repeated call returns the very
same matrix (see **C21** for the former). -/
theorem C24_repeat {f : Fac} (hf : f.WF W) (σ : SolveSt R) {Q : DMat R} (h : (f.basis W gens solve σ).1 = .ok Q)
    (solve' : ℕ → LinOp R → Py (DMat R)) : (f.basis W gens solve' (f.basis W gens solve σ).2).1 = .ok Q := by
  unfold Fac.basis at h ⊢
  rw [Fac.canon_wf hf] at h ⊢
  simp only at h ⊢
  cases hg : σ.get (f.base W) with
  | some Q' =>
    rw [hg] at h
    simp only [hg] at h ⊢
    exact h
  | none =>
    rw [hg] at h
    simp only at h ⊢
    cases hC : (f.base W).constraintMatrix W gens with
    | error e => rw [hC] at h; simp at h
    | ok C =>
      rw [hC] at h
      simp only at h ⊢
      cases hQ : solve σ.calls C with
      | error e => rw [hQ] at h; simp at h
      | ok Q' =>
        rw [hQ] at h
        simp only at h ⊢
        simpa [SolveSt.get] using h

/-- The generators of `Embed(O(1),2,slice(i,i+1))`, in place of group `3`: a reflection of one coordinate. -/
noncomputable def embedO1 (i : ℕ) : Gid → GenSet ℝ := fun g =>
  if g = 3 then ⟨[Interp.ofMat exW 3 (embedMat 2 [i] (fun i j => if i = j then 1 else 0) (DMat.of 1 1 fun _ _ => -1))
    (embedMat 2 [i] (fun i j => if i = j then 1 else 0) (DMat.of 1 1 fun _ _ => -1))], []⟩ else ⟨[], []⟩

/-- The representation `V(G)` of group `3`. -/
def repV3 : Rep := .key (.fac (.atom (.vec 0 (some 3))))

theorem repV3_wf : repV3.WF exW := rfl

theorem embedO1_sized (i : ℕ) : GenSet.Sized exW (embedO1 i) := by
  intro g
  unfold embedO1
  split
  · refine ⟨fun h hh => ?_, by simp⟩
    rw [mem_singleton] at hh
    subst hh
    exact Interp.ofMat_sized ⟨rfl, rfl⟩ ⟨rfl, rfl⟩
  · simp

theorem embedO1_fixed (i : ℕ) (v : List ℝ) : repV3.Fixed exW (embedO1 i) v ↔
    (embedMat 2 [i] (fun i j => if i = j then 1 else 0) (DMat.of 1 1 fun _ _ => -1)).mulVec v = v := by
  unfold Rep.Fixed FixedBy
  constructor
  · intro h
    exact (h 3).1 _ (by simp only [embedO1, if_true]; exact mem_singleton.2 rfl)
  · intro h g
    unfold embedO1
    split
    · rename_i hg
      subst hg
      refine ⟨fun x hx => ?_, by simp⟩
      rw [mem_singleton] at hx
      subst hx
      exact h
    · simp

theorem embedO1_eq : embedMat 2 [0] (fun i j => if i = j then 1 else 0) (DMat.of 1 1 fun _ _ => -1) = sq2 (-1) 0 0 1 ∧
    embedMat 2 [1] (fun i j => if i = j then 1 else 0) (DMat.of 1 1 fun _ _ => -1) = sq2 1 0 0 (-1) := by
  constructor
  all_goals
    refine DMat.ext rfl rfl fun i j hi hj => ?_
    have hi : i < 2 := hi
    have hj : j < 2 := hj
    interval_cases i <;> interval_cases j <;> simp [embedMat, sq2, DMat.of]

/-- **C24 is false**: `Embed(O(1),2,slice(0,1))` and `Embed(O(1),2,slice(1,2))` compare equal, so after solving for the
first, `V(G).equivariant_basis()` for the second returns the basis of the first, which is not a basis of the invariants
of the second; in a fresh process the call returns a correct basis. -/
theorem C24_counterexample (solve : ℕ → LinOp ℝ → Py (DMat ℝ)) (hsol : ∀ i, SolverOK exW (embedO1 i) solve) (htot : ∀ i, SolverRuns exW (embedO1 i) solve) :
    (GDesc.embed (.plain .O [1]) 2 [0]).eq (.embed (.plain .O [1]) 2 [1]) = true ∧
    (∃ L, (repV3.equivariantBasis exW (embedO1 1) solve freshSt).1 = .ok L ∧ OrthoBasis 2 L.sem (repV3.Fixed exW (embedO1 1))) ∧
    ∃ L, (repV3.equivariantBasis exW (embedO1 1) solve (repV3.equivariantBasis exW (embedO1 0) solve freshSt).2).1 = .ok L ∧
      ¬ OrthoBasis 2 L.sem (repV3.Fixed exW (embedO1 1)) := by
  refine ⟨by decide +kernel, ?_, ?_⟩
  · obtain ⟨L, hL⟩ := Rep.basis_runs (embedO1_sized 1) (htot 1) repV3_wf freshSt
    exact ⟨L, hL, (Rep.basis_meets (embedO1_sized 1) (hsol 1) repV3_wf trivial _ (cacheOK_of_history (hsol 1) [])).2 L hL⟩
  · obtain ⟨L, hL⟩ := Rep.basis_runs (embedO1_sized 0) (htot 0) repV3_wf freshSt
    have h0 : OrthoBasis 2 L.sem (repV3.Fixed exW (embedO1 0)) :=
      (Rep.basis_meets (embedO1_sized 0) (hsol 0) repV3_wf trivial _ (cacheOK_of_history (hsol 0) [])).2 L hL
    refine ⟨L, ?_, fun h1 => ?_⟩
    · have hb : ∃ Q, ((Fac.atom (.vec 0 (some 3))).basis exW (embedO1 0) solve freshSt).1 = .ok Q ∧ L = .lazy Q := by
        change (solveMap LinOp.lazy ((Fac.atom (.vec 0 (some 3))).basis exW (embedO1 0) solve) freshSt).1 = .ok L at hL
        unfold solveMap at hL
        generalize (Fac.atom (.vec 0 (some 3))).basis exW (embedO1 0) solve freshSt = r at hL
        obtain ⟨o, σ⟩ := r
        cases o with
        | error e => simp at hL
        | ok Q => exact ⟨Q, rfl, by injection hL with hL; exact hL.symm⟩
      obtain ⟨Q, hQ, rfl⟩ := hb
      have hst : (repV3.equivariantBasis exW (embedO1 0) solve freshSt).2 = ((Fac.atom (.vec 0 (some 3))).basis exW (embedO1 0) solve freshSt).2 := by
        change (solveMap LinOp.lazy ((Fac.atom (.vec 0 (some 3))).basis exW (embedO1 0) solve) freshSt).2 = _
        unfold solveMap
        generalize (Fac.atom (.vec 0 (some 3))).basis exW (embedO1 0) solve freshSt = r
        obtain ⟨o, σ⟩ := r
        cases o <;> rfl
      rw [hst]
      have hc : ((Fac.atom (.vec 0 (some 3))).basis exW (embedO1 1) solve ((Fac.atom (.vec 0 (some 3))).basis exW (embedO1 0) solve freshSt).2).1 = .ok Q := by
        have hcan : (Fac.atom (.vec 0 (some 3))).canon exW = .ok (Fac.atom (.vec 0 (some 3)), range 2) := by decide +kernel
        unfold Fac.basis at hQ ⊢
        rw [hcan] at hQ ⊢
        simp only [freshSt, SolveSt.get, find?_nil, Option.map_none] at hQ ⊢
        generalize (Fac.atom (.vec 0 (some 3))).constraintMatrix exW (embedO1 0) = C at hQ ⊢
        cases C with
        | error e => simp at hQ
        | ok C =>
          simp only at hQ ⊢
          cases hs : solve 0 C with
          | error e => rw [hs] at hQ; simp at hQ
          | ok Q' => rw [hs] at hQ; simpa using hQ
      change (solveMap LinOp.lazy _ _).1 = _
      unfold solveMap
      generalize (Fac.atom (.vec 0 (some 3))).basis exW (embedO1 1) solve _ = r at hc
      obtain ⟨o, σ⟩ := r
      simp only at hc
      subst hc
      rfl
    · have f0 : repV3.Fixed exW (embedO1 0) [0, 1] := by
        rw [embedO1_fixed, embedO1_eq.1, sq2_mulVec]; simp
      have f1 : ¬ repV3.Fixed exW (embedO1 1) [0, 1] := by
        rw [embedO1_fixed, embedO1_eq.2, sq2_mulVec]; norm_num
      exact f1 ((h1.span _ rfl).2 ((h0.span _ rfl).1 f0))

/-- The hypotheses of **C20**, **C21**, **C22** and **C24** are met by real generators and an exact routine. -/
example : GenSet.Sized exW (embedO1 0) ∧ repV3.WF exW ∧ repV3.OnePerGroup ∧ (∀ x : ℝ, star x = x) ∧
    ∃ solve : ℕ → LinOp ℝ → Py (DMat ℝ), ∀ i, SolverOK exW (embedO1 i) solve ∧ SolverRuns exW (embedO1 i) solve := by
  obtain ⟨s, h1, h2⟩ := exists_solver ℝ
  exact ⟨embedO1_sized 0, repV3_wf, trivial, fun x => rfl, fun _ => s, fun i => ⟨h1 _ _, fun _ _ C _ => h2 C⟩⟩

end Verif
