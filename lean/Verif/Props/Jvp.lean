import Verif.Model.Jvp
import Verif.Props.Sampled
import Verif.Props.LinApply
import Mathlib.Analysis.Calculus.FDeriv.Pi

/-!
# C103: the default `drho` of user-defined representations
-/
namespace Verif
open List Matrix

/-! ## The operator -/

theorem deriv_row {m : ℕ} {w : ℕ → ℝ → ℝ} (hw : ∀ j < m, DifferentiableAt ℝ (w j) 0) (c : ℕ → ℝ) :
    deriv (fun t => ∑ j ∈ Finset.range m, w j t * c j) 0 = ∑ j ∈ Finset.range m, deriv (w j) 0 * c j := by
  have : HasDerivAt (fun t => ∑ j ∈ Finset.range m, w j t * c j) (∑ j ∈ Finset.range m, deriv (w j) 0 * c j) 0 :=
    HasDerivAt.fun_sum fun j hj => (hw j (Finset.mem_range.1 hj)).hasDerivAt.mul_const _
  exact this.deriv

theorem jvp_matmul {f : ℝ → DMat ℝ} {m n : ℕ} (hr : ∀ t, (f t).rows = m) (hc : ∀ t, (f t).cols = n)
    (hf : ∀ i < m, ∀ j < n, DifferentiableAt ℝ (fun t => (f t).e i j) 0) (x : NdArr ℝ) :
    jvpArr (fun t => NdArr.matmul (f t) x) = NdArr.matmul (DMat.of m n fun i j => deriv (fun t => (f t).e i j) 0) x := by
  unfold jvpArr NdArr.matmul
  rcases x.shape with _ | ⟨a, _ | ⟨k, _ | _⟩⟩
  · rfl
  · dsimp only
    by_cases ha : a = n
    · simp only [hc, hr, if_pos ha, DMat.of_rows, DMat.of_cols, DMat.length_mulVec]
      refine Eq.trans ?_ (if_pos ha).symm
      refine congrArg Except.ok (congrArg (NdArr.mk [m]) ?_)
      refine ext_getElem (by simp) fun i h1 h2 => ?_
      have hi : i < m := by simpa using h1
      rw [getElem_map, getElem_range, ← getD_eq_getElem _ 0 h2, DMat.getD_mulVec hi]
      have e : ∀ t, ((f t).mulVec x.data).getD i 0 = ∑ j ∈ Finset.range n, (f t).e i j * x.data.getD j 0 := fun t => by
        rw [DMat.getD_mulVec (by rw [hr]; exact hi), hc]
      simp only [e]
      rw [deriv_row (hf i hi)]
      exact Finset.sum_congr rfl fun j hj => by rw [DMat.of_e hi (show j < n from Finset.mem_range.1 hj)]
    · simp only [hc, if_neg ha]
      exact (if_neg ha).symm
  · dsimp only
    by_cases ha : a = n
    · simp only [hc, hr, if_pos ha, DMat.of_rows, DMat.of_cols]
      simp only [NdArr.ofFn, length_map]
      refine Eq.trans ?_ (if_pos ha).symm
      refine congrArg Except.ok (congrArg (NdArr.mk [m, k]) ?_)
      refine ext_getElem (by simp) fun i h1 h2 => ?_
      have hi : i < (indices [m, k]).length := by simpa using h1
      rw [getElem_map, getElem_range, getElem_map]
      have hm := mem_indices.1 (getElem_mem hi)
      generalize hidx : (indices [m, k])[i] = idx at hm
      obtain ⟨p, q, rfl⟩ : ∃ p q, idx = [p, q] := by
        cases hm with
        | cons h1 h2 => cases h2 with
          | cons h3 h4 => cases h4; exact ⟨_, _, rfl⟩
      have hp : p < m := by
        cases hm with
        | cons h1 h2 => exact h1
      have e : ∀ t, ((indices [m, k]).map fun idx => ∑ j ∈ Finset.range n, (f t).e (idx.getD 0 0) j * x.get [j, idx.getD 1 0]).getD i 0
          = ∑ j ∈ Finset.range n, (f t).e p j * x.get [j, q] := fun t => by
        rw [getD_eq_getElem _ _ (by simpa using hi), getElem_map, hidx]; rfl
      simp only [e]
      rw [deriv_row (hf p hp)]
      exact Finset.sum_congr rfl fun j hj => by
        rw [show ([p, q] : List ℕ).getD 0 0 = p from rfl, show ([p, q] : List ℕ).getD 1 0 = q from rfl, DMat.of_e hp (Finset.mem_range.1 hj)]
    · simp only [hc, if_neg ha]
      exact (if_neg ha).symm
  · rfl

/-- **C103, the operator.** If `rho` is differentiable at the identity, then all methods of the operator `rep.drho(A)` returns compute with
the matrix of derivatives of the entries of `rho(1+tA)`: on vectors and matrices, and transposed on matrices. -/
theorem C103_operator (rho : DMat ℝ → DMat ℝ) (A : DMat ℝ) {m n : ℕ} (hr : ∀ t, (rhoLine rho A t).rows = m) (hc : ∀ t, (rhoLine rho A t).cols = n)
    (hf : ∀ i < m, ∀ j < n, DifferentiableAt ℝ (fun t => (rhoLine rho A t).e i j) 0) :
    lazyJvp (rhoLine rho A) = (defaultDrho rho A).fwd ∧ lazyJvpR (rhoLine rho A) = (defaultDrho rho A).bwd ∧
      (defaultDrho rho A).toDense = .ok (DMat.of m n fun i j => deriv (fun t => (rhoLine rho A t).e i j) 0) := by
  refine ⟨?_, ?_, ?_⟩
  · unfold lazyJvp defaultDrho
    rw [Op.fwd, Act.ofMat, hr, hc]
    congr 1 <;> exact funext fun v => jvp_matmul hr hc hf v
  · unfold lazyJvpR defaultDrho
    rw [Op.bwd, hr, hc]
    congr 1
    refine funext fun v => ?_
    have := jvp_matmul (f := fun t => (rhoLine rho A t).transpose) (m := n) (n := m) (fun t => hc t) (fun t => hr t)
      (fun i hi j hj => by
        have e : (fun t => ((rhoLine rho A t).transpose).e i j) = fun t => (rhoLine rho A t).e j i := funext fun t => by
          rw [DMat.transpose, DMat.of_e (by rw [hc]; exact hi) (by rw [hr]; exact hj)]
        rw [e]; exact hf j hj i hi) v
    rw [this]
    refine congrArg (fun M => NdArr.matmul M v) (DMat.ext rfl rfl fun i j hi hj => ?_)
    have hi : i < n := hi
    have hj : j < m := hj
    rw [DMat.of_e hi hj]
    refine Eq.trans ?_ (DMat.of_e (f := fun i j => (DMat.of m n fun i j => deriv (fun t => (rhoLine rho A t).e i j) 0).e j i) hi hj).symm
    rw [DMat.of_e hj hi]
    congr 1
    exact funext fun t => by rw [DMat.transpose, DMat.of_e (by rw [hc]; exact hi) (by rw [hr]; exact hj)]
  · unfold defaultDrho
    rw [Op.toDense_eq _ (by rw [Op.WF]; trivial), Op.den, hr, hc]

/-- A case: `rho(M) = M` and the generator of rotations. -/
example : (defaultDrho (fun M => M) (DMat.ofMatrix !![0, -1; 1, (0 : ℝ)])).toDense = .ok (DMat.ofMatrix !![0, -1; 1, (0 : ℝ)]) := by
  have e : ∀ i < 2, ∀ j < 2, (fun t => (rhoLine (fun M => M) (DMat.ofMatrix !![0, -1; 1, (0 : ℝ)]) t).e i j)
      = fun t : ℝ => (DMat.one 2).e i j + t * (DMat.ofMatrix !![0, -1; 1, (0 : ℝ)]).e i j := fun i hi j hj => by
    funext t
    show ((DMat.one 2).add (DMat.smul t (DMat.ofMatrix !![0, -1; 1, (0 : ℝ)]))).e i j = _
    rw [DMat.add_e (A := DMat.one 2) hi hj, DMat.smul_e]
  have hd : ∀ i < 2, ∀ j < 2, HasDerivAt (fun t => (rhoLine (fun M => M) (DMat.ofMatrix !![0, -1; 1, (0 : ℝ)]) t).e i j)
      ((DMat.ofMatrix !![0, -1; 1, (0 : ℝ)]).e i j) 0 := fun i hi j hj => by
    rw [e i hi j hj]
    simpa using ((hasDerivAt_id (0 : ℝ)).mul_const ((DMat.ofMatrix !![0, -1; 1, (0 : ℝ)]).e i j)).const_add ((DMat.one 2).e i j)
  rw [(C103_operator (fun M => M) (DMat.ofMatrix !![0, -1; 1, (0 : ℝ)]) (m := 2) (n := 2) (fun _ => rfl) (fun _ => rfl)
    fun i hi j hj => (hd i hi j hj).differentiableAt).2.2]
  refine congrArg Except.ok (DMat.ext rfl rfl fun i j hi hj => ?_)
  exact (DMat.of_e (m := 2) (n := 2) hi hj).trans (hd i hi j hj).deriv

/-! ## The contract -/

section
variable {n m : ℕ}

/-- `rho` near the identity can be differentiated: every entry is a differentiable function of the entries of its argument. -/
def DiffAtOne (rho : Matrix (Fin n) (Fin n) ℝ → Matrix (Fin m) (Fin m) ℝ) : Prop :=
  ∀ i j, DifferentiableAt ℝ (fun X : Fin n → Fin n → ℝ => rho (Matrix.of X) i j) (fun i j => (1 : Matrix (Fin n) (Fin n) ℝ) i j)

set_option backward.isDefEq.respectTransparency false in
open scoped Matrix.Norms.Operator in
theorem hasDerivAt_exp_entries (A : Matrix (Fin n) (Fin n) ℝ) :
    HasDerivAt (fun t : ℝ => fun i j => (NormedSpace.exp (t • A)) i j) (fun i j => A i j) 0 := by
  have h := hasDerivAt_exp_smul_const (𝕂 := ℝ) A (0 : ℝ)
  have h2 : HasDerivAt (fun t : ℝ => NormedSpace.exp (t • A)) A 0 := by simpa using h
  rw [hasDerivAt_pi]
  intro i
  rw [hasDerivAt_pi]
  intro j
  have := (hasDerivAt_pi.1 h2 i)
  exact hasDerivAt_pi.1 this j

theorem hasDerivAt_line (A : Matrix (Fin n) (Fin n) ℝ) :
    HasDerivAt (fun t : ℝ => fun i j => (1 + t • A : Matrix (Fin n) (Fin n) ℝ) i j) (fun i j => A i j) 0 := by
  rw [hasDerivAt_pi]
  intro i
  rw [hasDerivAt_pi]
  intro j
  have : HasDerivAt (fun t : ℝ => (1 : Matrix (Fin n) (Fin n) ℝ) i j + t * A i j) (A i j) 0 := by
    have := ((hasDerivAt_id (0 : ℝ)).mul_const (A i j)).const_add ((1 : Matrix (Fin n) (Fin n) ℝ) i j)
    simpa using this
  exact this

/-- The derivative of `rho` at the identity. -/
noncomputable def drhoLin (rho : Matrix (Fin n) (Fin n) ℝ → Matrix (Fin m) (Fin m) ℝ) : Matrix (Fin n) (Fin n) ℝ →ₗ[ℝ] Matrix (Fin m) (Fin m) ℝ where
  toFun A := Matrix.of fun i j => fderiv ℝ (fun X : Fin n → Fin n → ℝ => rho (Matrix.of X) i j) (fun i j => (1 : Matrix (Fin n) (Fin n) ℝ) i j) (fun i j => A i j)
  map_add' A B := by
    ext i j
    exact map_add (fderiv ℝ (fun X : Fin n → Fin n → ℝ => rho (Matrix.of X) i j) _) (fun i j => A i j) (fun i j => B i j)
  map_smul' c A := by
    ext i j
    exact map_smul (fderiv ℝ (fun X : Fin n → Fin n → ℝ => rho (Matrix.of X) i j) _) c (fun i j => A i j)

theorem hasDerivAt_along {rho : Matrix (Fin n) (Fin n) ℝ → Matrix (Fin m) (Fin m) ℝ} (hd : DiffAtOne rho) (A : Matrix (Fin n) (Fin n) ℝ)
    {c : ℝ → Matrix (Fin n) (Fin n) ℝ} (h0 : c 0 = 1) (hc : HasDerivAt (fun t : ℝ => fun i j => c t i j) (fun i j => A i j) 0) (i j : Fin m) :
    HasDerivAt (fun t => rho (c t) i j) (drhoLin rho A i j) 0 := by
  have h1 := (hd i j).hasFDerivAt
  have h2 : HasFDerivAt (fun X : Fin n → Fin n → ℝ => rho (Matrix.of X) i j)
      (fderiv ℝ (fun X : Fin n → Fin n → ℝ => rho (Matrix.of X) i j) (fun i j => (1 : Matrix (Fin n) (Fin n) ℝ) i j)) ((fun t : ℝ => fun i j => c t i j) 0) := by
    simpa [h0] using h1
  exact h2.comp_hasDerivAt (0 : ℝ) hc

theorem rhoLine_e (rho : Matrix (Fin n) (Fin n) ℝ → Matrix (Fin m) (Fin m) ℝ) (A : Matrix (Fin n) (Fin n) ℝ) (t : ℝ) (i j : Fin m) :
    (rhoLine (fun M => DMat.ofMatrix (rho (M.toMatrix n n))) (DMat.ofMatrix A) t).e i j = rho (1 + t • A) i j := by
  show (DMat.ofMatrix (rho (((DMat.one n).add (DMat.smul t (DMat.ofMatrix A))).toMatrix n n))).e i j = _
  rw [DMat.ofMatrix_e _ i.2 j.2]
  congr 2
  ext a b
  show ((DMat.one n).add (DMat.smul t (DMat.ofMatrix A))).e a b = (1 : Matrix (Fin n) (Fin n) ℝ) a b + t * A a b
  rw [DMat.add_e (A := DMat.one n) a.2 b.2, DMat.smul_e, DMat.ofMatrix_e _ a.2 b.2]
  congr 1
  rw [DMat.one_e a.2 b.2, Matrix.one_apply]
  simp only [Fin.ext_iff]

/-- **C103, the contract.** A user-defined representation has only to supply a `rho` that is multiplicative on the group and can be
differentiated at the identity: what the inherited `drho` then computes meets everything the theorems about the solver and the networks (C25,
C30, C40, ...) ask of `drho`.  It is linear, and `rho(exp A) = exp(drho(A))` on the Lie algebra. -/
theorem C103_contract (rho : Matrix (Fin n) (Fin n) ℝ → Matrix (Fin m) (Fin m) ℝ) (one : rho 1 = 1) {lie disc : List (Matrix (Fin n) (Fin n) ℝ)}
    (mul : ∀ g h, Generated lie disc g → Generated lie disc h → rho (g * h) = rho g * rho h) (hd : DiffAtOne rho) :
    ∃ a : AtomRep ℝ n m, a.rho = rho ∧ a.Hom lie disc ∧
      ∀ A, defaultDrho (fun M => DMat.ofMatrix (rho (M.toMatrix n n))) (DMat.ofMatrix A) = .jvp (DMat.ofMatrix (a.drho A)) := by
  refine ⟨⟨rho, drhoLin rho, one⟩, rfl, AtomRep.hom_of_deriv _ mul fun A _ i j => ?_, fun A => ?_⟩
  · exact hasDerivAt_along hd A (by simp) (hasDerivAt_exp_entries A) i j
  · unfold defaultDrho
    refine congrArg Op.jvp (DMat.ext rfl rfl fun i j hi hj => ?_)
    have hi : i < m := hi
    have hj : j < m := hj
    refine (DMat.of_e (m := m) (n := m) hi hj).trans ?_
    rw [DMat.ofMatrix_e _ hi hj]
    have e : (fun t => (rhoLine (fun M => DMat.ofMatrix (rho (M.toMatrix n n))) (DMat.ofMatrix A) t).e i j) = fun t : ℝ => rho (1 + t • A) ⟨i, hi⟩ ⟨j, hj⟩ :=
      funext fun t => rhoLine_e rho A t ⟨i, hi⟩ ⟨j, hj⟩
    rw [e]
    exact (hasDerivAt_along hd A (c := fun t => 1 + t • A) (by simp) (hasDerivAt_line A) _ _).deriv

set_option backward.isDefEq.respectTransparency false in
theorem exp_fix_iff (D : Matrix (Fin m) (Fin m) ℝ) (v : Fin m → ℝ) : D *ᵥ v = 0 ↔ ∀ t : ℝ, NormedSpace.exp (t • D) *ᵥ v = v := by
  constructor
  · intro h t
    have h1 : Matrix.replicateCol (Fin 1) v * (0 : Matrix (Fin 1) (Fin 1) ℝ) = (t • D) * Matrix.replicateCol (Fin 1) v := by
      rw [Matrix.mul_zero, Matrix.smul_mul, ← Matrix.replicateCol_mulVec, h]
      ext i j; simp
    have h2 := exp_intertwine _ _ _ h1
    rw [NormedSpace.exp_zero, Matrix.mul_one, ← Matrix.replicateCol_mulVec] at h2
    funext i
    exact (congrFun (congrFun h2 i) 0).symm
  · intro h
    funext i
    have h1 : HasDerivAt (fun t : ℝ => ∑ j, NormedSpace.exp (t • D) i j * v j) (∑ j, D i j * v j) 0 :=
      HasDerivAt.fun_sum fun j _ => (hasDerivAt_pi.1 (hasDerivAt_pi.1 (hasDerivAt_exp_entries D) i) j).mul_const _
    have h2 : (fun t : ℝ => ∑ j, NormedSpace.exp (t • D) i j * v j) = fun _ => v i := funext fun t => congrFun (h t) i
    rw [h2] at h1
    exact (h1.unique (hasDerivAt_const _ _) : (D *ᵥ v) i = 0)

theorem mulVec_ofMatrix (M : Matrix (Fin m) (Fin m) ℝ) {v : List ℝ} (hv : v.length = m) :
    (DMat.ofMatrix M).mulVec v = List.ofFn (M *ᵥ fun j => v.getD j 0) := by
  refine DMat.vec_ext (by simp [DMat.ofMatrix]) fun i hi => ?_
  have hi : i < m := by simpa [DMat.ofMatrix] using hi
  rw [DMat.getD_mulVec hi, getD_eq_getElem _ _ (by simpa using hi), List.getElem_ofFn, show (DMat.ofMatrix M).cols = m from rfl, Finset.sum_range]
  exact Finset.sum_congr rfl fun j _ => by rw [DMat.ofMatrix_e M hi j.2]

/-- **C103, constraints.** So `drho(A)v = 0` is the condition that the whole one-parameter group of `A` fixes `v`. -/
theorem C103_constraint (rho : Matrix (Fin n) (Fin n) ℝ → Matrix (Fin m) (Fin m) ℝ) (one : rho 1 = 1) {lie disc : List (Matrix (Fin n) (Fin n) ℝ)}
    (mul : ∀ g h, Generated lie disc g → Generated lie disc h → rho (g * h) = rho g * rho h) (hd : DiffAtOne rho)
    {A : Matrix (Fin n) (Fin n) ℝ} (hA : A ∈ Submodule.span ℝ {A | A ∈ lie}) (v : List ℝ) (hv : v.length = m) :
    (defaultDrho (fun M => DMat.ofMatrix (rho (M.toMatrix n n))) (DMat.ofMatrix A)).dot ⟨[m], v⟩ = .ok ⟨[m], replicate m 0⟩ ↔
      ∀ t : ℝ, (DMat.ofMatrix (rho (NormedSpace.exp (t • A)))).mulVec v = v := by
  obtain ⟨a, rfl, hom, h⟩ := C103_contract rho one mul hd
  have hdot : (Op.jvp (DMat.ofMatrix (a.drho A)) : Op ℝ).dot ⟨[m], v⟩ = .ok ⟨[m], (DMat.ofMatrix (a.drho A)).mulVec v⟩ :=
    Act.Is.dot_vec (Op.fwd_is (.jvp (DMat.ofMatrix (a.drho A))) (by rw [Op.WF]; trivial)) v hv
  have hz : (fun _ : Fin m => (0 : ℝ)) = 0 := rfl
  have hv' : v = List.ofFn fun j : Fin m => v.getD j 0 := by
    subst hv
    simp
  rw [h, hdot, mulVec_ofMatrix _ hv]
  have key : ∀ t : ℝ, a.rho (NormedSpace.exp (t • A)) = NormedSpace.exp (t • a.drho A) := fun t => by
    rw [hom.exp _ (Submodule.smul_mem _ t hA), map_smul]
  have e : ((Except.ok ⟨[m], List.ofFn (a.drho A *ᵥ fun j => v.getD j 0)⟩ : Py (NdArr ℝ)) = .ok ⟨[m], replicate m 0⟩) ↔ a.drho A *ᵥ (fun j : Fin m => v.getD j 0) = 0 := by
    rw [← List.ofFn_const, Except.ok.injEq, NdArr.mk.injEq]
    simp only [true_and, List.ofFn_inj, hz]
  rw [e, exp_fix_iff]
  refine forall_congr' fun t => ?_
  rw [key, mulVec_ofMatrix _ hv]
  generalize (fun j : Fin m => v.getD j 0) = w at hv'
  rw [hv', List.ofFn_inj]

/-! ### The representations of the documentation (docs/notebooks/4new_representations.ipynb) -/

/-- `SO2Irreps(order).rho`: `jnp.linalg.matrix_power(M,order)`. -/
def so2Irrep (k : ℕ) (M : Matrix (Fin 2) (Fin 2) ℝ) : Matrix (Fin 2) (Fin 2) ℝ := M ^ k

/-- `PseudoScalar.rho`: the sign of the determinant, a `1 × 1` matrix. -/
noncomputable def pseudoScalar (n : ℕ) (M : Matrix (Fin n) (Fin n) ℝ) : Matrix (Fin 1) (Fin 1) ℝ := Matrix.of fun _ _ => SignType.sign M.det

theorem so2Irrep_diff (k : ℕ) : DiffAtOne (so2Irrep k) := by
  have h : ∀ k i j, Differentiable ℝ (fun X : Fin 2 → Fin 2 → ℝ => ((Matrix.of X) ^ k) i j) := by
    intro k
    induction k with
    | zero =>
      intro i j
      simp only [pow_zero]
      exact differentiable_const _
    | succ k ih =>
      intro i j
      simp only [pow_succ, Matrix.mul_apply]
      refine Differentiable.fun_sum fun l _ => (ih i l).mul ?_
      show Differentiable ℝ fun X : Fin 2 → Fin 2 → ℝ => X l j
      fun_prop
  exact fun i j => h k i j _

theorem det_continuous (n : ℕ) : Continuous fun X : Fin n → Fin n → ℝ => (Matrix.of X).det :=
  Continuous.matrix_det (continuous_id : Continuous fun X : Fin n → Fin n → ℝ => X)

theorem pseudoScalar_diff (n : ℕ) : DiffAtOne (pseudoScalar n) := fun i j => by
  have h1 : (0 : ℝ) < (Matrix.of fun i j => (1 : Matrix (Fin n) (Fin n) ℝ) i j).det := by
    rw [show (Matrix.of fun i j => (1 : Matrix (Fin n) (Fin n) ℝ) i j) = 1 from rfl, Matrix.det_one]
    exact one_pos
  have h2 := (det_continuous n).continuousAt.eventually (lt_mem_nhds h1)
  have h3 : (fun X : Fin n → Fin n → ℝ => pseudoScalar n (Matrix.of X) i j) =ᶠ[nhds fun i j => (1 : Matrix (Fin n) (Fin n) ℝ) i j] fun _ => 1 := by
    filter_upwards [h2] with X hX
    show ((SignType.sign (Matrix.of X).det : SignType) : ℝ) = 1
    rw [sign_pos hX]; rfl
  exact (differentiableAt_const _).congr_of_eventuallyEq h3

theorem pseudoScalar_one (n : ℕ) : pseudoScalar n 1 = 1 := by
  ext i j
  fin_cases i; fin_cases j
  simp [pseudoScalar]

theorem pseudoScalar_mul (n : ℕ) (g h : Matrix (Fin n) (Fin n) ℝ) : pseudoScalar n (g * h) = pseudoScalar n g * pseudoScalar n h := by
  ext i j
  simp [pseudoScalar, Matrix.mul_apply, Matrix.det_mul, sign_mul]

/-- The generator of `SO(2)`. -/
def so2Gen : Matrix (Fin 2) (Fin 2) ℝ := !![0, -1; 1, 0]

end

/-! ## The dual of such a representation -/

theorem dot_vec_raises {a : Act ℝ} {n : ℕ} {v : List ℝ} {e : PyErr} (hn : n = a.cols) (h : a.mv ⟨[n], v⟩ = .error e) :
    a.dot ⟨[n], v⟩ = .error e := by
  subst hn
  have h1 : a.dot ⟨[a.cols], v⟩ = a.matvec ⟨[a.cols], v⟩ := if_pos (Or.inl rfl)
  have h2 : a.matvec ⟨[a.cols], v⟩ = (do (← a.mv ⟨[a.cols], v⟩).reshape? [a.rows]) := if_neg (fun h => h.1 rfl)
  rw [h1, h2, h]; rfl

/-- **C103, duals of one-dimensional representations.** `Dual(rep).drho(A)` is minus the transpose of the operator above, whose class has no
transposed product with a vector.  Applied to a vector it raises `NotImplementedError`, whatever the representation. -/
theorem C103_counterexample_dual_vector (D : DMat ℝ) : ∃ N, Op.dualDrho (.jvp D) = .ok N ∧ ∀ v, N.dot ⟨[D.rows], v⟩ = .error .notImplemented := by
  refine ⟨_, rfl, fun v => dot_vec_raises rfl ?_⟩
  show (Op.smul (-1) (.tr (.jvp D))).fwd.mv ⟨[D.rows], v⟩ = _
  rw [Op.fwd]
  show (do .ok (((← (Op.tr (.jvp D)).fwd.matvec ⟨[D.rows], v⟩).scale (-1))) : Py (NdArr ℝ)) = _
  have h2 : (Op.tr (.jvp D)).fwd.matvec ⟨[D.rows], v⟩ = .error .notImplemented := by
    rw [Op.fwd, Op.bwd]
    unfold Act.matvec
    rw [if_neg (fun h => h.1 rfl)]
    rfl
  rw [h2]; rfl

/-- The dense form is right unless the representation has dimension 1, in which case computing it raises. -/
theorem C103_dual_partial (D : DMat ℝ) {m : ℕ} (hD : D.IsSq m) : ∃ N, Op.dualDrho (.jvp D) = .ok N ∧
    N.toDense = if m = 1 then .error .notImplemented else .ok D.transpose.neg := by
  refine ⟨_, rfl, ?_⟩
  show (Op.smul (-1) (.tr (.jvp D))).toDense = _
  rw [Op.toDense, Op.toDense, Op.bwd]
  unfold Op.defaultDense
  obtain ⟨a, ha⟩ : ∃ a : Act ℝ, a = (⟨D.cols, D.rows, fun _ => .error .notImplemented, NdArr.matmul D.transpose⟩ : Act ℝ).conj := ⟨_, rfl⟩
  rw [← ha]
  have hc : a.cols = m := by rw [ha]; exact hD.1
  have hconj : ∀ x : NdArr ℝ, x.conj = x := fun x => by
    show NdArr.mk x.shape (x.data.map star) = x
    rw [show (star : ℝ → ℝ) = id from funext fun x => rfl, List.map_id]
  split_ifs with h1
  · have hdot : a.dot (DMat.one a.cols : DMat ℝ).toArr = .error .notImplemented := by
      rw [hc, h1]
      have e1 : a.dot (DMat.one 1 : DMat ℝ).toArr = a.matvec (DMat.one 1 : DMat ℝ).toArr := if_pos (Or.inr ⟨rfl, rfl⟩)
      rw [e1]
      unfold Act.matvec
      rw [hc, h1, if_neg (fun h => h.2 rfl), ha]
      rfl
    rw [hdot]; rfl
  · have hdot : a.dot (DMat.one a.cols : DMat ℝ).toArr = .ok (D.transpose.mul (DMat.one m)).toArr := by
      rw [hc]
      have e1 : a.dot (DMat.one m : DMat ℝ).toArr = a.matmat (DMat.one m : DMat ℝ).toArr := by
        unfold Act.dot
        rw [if_neg (by rintro (h | h) <;> [exact absurd (show 2 = 1 from h) (by norm_num); exact h1 h.2]), if_pos (by rfl)]
      have e2 : a.matmat (DMat.one m : DMat ℝ).toArr = a.mm (DMat.one m : DMat ℝ).toArr := by
        unfold Act.matmat
        rw [hc, if_neg (by simp [DMat.toArr]), if_neg (by simp [DMat.toArr, DMat.one])]
      have e3 : NdArr.matmul D.transpose (DMat.one m : DMat ℝ).toArr = .ok (D.transpose.mul (DMat.one m)).toArr :=
        (Act.ofMat_is D.transpose).mm (DMat.one m) hD.1.symm
      rw [e1, e2, ha]
      show (do .ok (← NdArr.matmul D.transpose (DMat.one m : DMat ℝ).toArr.conj).conj : Py (NdArr ℝ)) = _
      rw [hconj, e3]
      exact congrArg Except.ok (hconj _)
    rw [hdot]
    show (do .ok (DMat.smul (-1) (← DMat.ofArr (D.transpose.mul (DMat.one m)).toArr)) : Py (DMat ℝ)) = _
    rw [Op.ofArr_toArr]
    refine congrArg Except.ok ?_
    have : D.transpose.mul (DMat.one m) = D.transpose := DMat.mul_one' D.transpose hD.1
    rw [this]
    refine DMat.ext rfl rfl fun i j hi hj => ?_
    rw [DMat.smul_e]
    exact (neg_one_mul _).trans (DMat.of_e (f := fun i j => - D.transpose.e i j) hi hj).symm

/-- The dual of the determinant: the derivative at the identity in the direction `1` is the `1 × 1` matrix 2, and minus its transpose cannot
be made dense; for `rho(M) = M` in dimension 2 it can. -/
example : ∃ N, Op.dualDrho (.jvp (DMat.ofMatrix (Matrix.of fun _ _ : Fin 1 => (2 : ℝ)))) = .ok N ∧ N.toDense = .error .notImplemented := by
  simpa using C103_dual_partial (DMat.ofMatrix (Matrix.of fun _ _ : Fin 1 => (2 : ℝ))) (m := 1) ⟨rfl, rfl⟩

example : ∃ N, Op.dualDrho (.jvp (DMat.ofMatrix !![0, -1; 1, (0 : ℝ)])) = .ok N ∧
    N.toDense = .ok (DMat.ofMatrix !![0, -1; 1, (0 : ℝ)]).transpose.neg := by
  simpa using C103_dual_partial (DMat.ofMatrix !![0, -1; 1, (0 : ℝ)]) (m := 2) ⟨rfl, rfl⟩

theorem conjPerm_raises {X : Op ℝ} (ha : X.asArr = none) (hX : ∃ e, X.toDense = .error e) (perm : List ℕ) :
    ∃ e, (Op.conjPerm perm X >>= fun Y => Y.densify) = .error e := by
  obtain ⟨e, he⟩ := hX
  have hm : ∀ {A B : Op ℝ}, A.asArr = none → B.asArr = none → Op.at A B = Op.mkMul A B := fun {A B} h1 h2 => by
    unfold Op.at; rw [h1, h2]
  have hmk : ∀ A B : Op ℝ, (∃ e, Op.mkMul A B = .error e) ∨ Op.mkMul A B = .ok (.mul A B) := fun A B => by
    unfold Op.mkMul
    split_ifs <;> simp
  unfold Op.conjPerm
  rw [hm rfl ha]
  rcases hmk (.perm (argsort perm)) X with ⟨e', h⟩ | h
  · exact ⟨e', by rw [h]; rfl⟩
  rw [h]
  show ∃ e, ((Op.at (.mul (.perm (argsort perm)) X) (.perm perm)) >>= fun Y => Y.densify) = .error e
  rw [hm rfl rfl]
  rcases hmk (.mul (.perm (argsort perm)) X) (.perm perm) with ⟨e', h⟩ | h
  · exact ⟨e', by rw [h]; rfl⟩
  rw [h]
  show ∃ e, (Op.mul (.mul (.perm (argsort perm)) X) (.perm perm)).toDense = .error e
  rw [Op.toDense, Op.toDense, he]
  cases (Op.perm (argsort perm) : Op ℝ).toDense with
  | error e' => exact ⟨e', rfl⟩
  | ok d => exact ⟨e, rfl⟩

/-- So `drho_dense` of the dual of a one-dimensional user-defined representation of a group that is not orthogonal raises, and so does that of
every tensor product that has it as a factor (whose dense form is what `equivariant_basis()` factorises). -/
theorem C103_counterexample_dual (I : OpInterp ℝ) (p : PRep) {k : ℕ} {g : Option Gid} {D : DMat ℝ} (hk : I.vec k g = .jvp D) (hD : D.IsSq 1)
    (hmem : Atom.dual k g ∈ p.c.expand) : ∃ e, (Rep.key (.fac (.prod p))).drhoDense I = .error e := by
  obtain ⟨N, hN, hd⟩ := C103_dual_partial D hD
  rw [if_pos rfl] at hd
  show ∃ e, (p.drhoOp I >>= fun X => X.densify) = .error e
  unfold PRep.drhoOp
  cases hM : p.c.expand.mapM (Atom.drhoOp I) with
  | error e => exact ⟨e, rfl⟩
  | ok Ms =>
    have hNMs : N ∈ Ms := by
      have hN' : Atom.drhoOp I (.dual k g) = .ok N := by rw [Atom.drhoOp, hk, hN]
      revert hmem hM
      generalize p.c.expand = l
      intro hmem hM
      induction l generalizing Ms with
      | nil => simp at hmem
      | cons a l ih =>
        rw [List.mapM_cons] at hM
        cases ha : Atom.drhoOp I a with
        | error e => rw [ha] at hM; cases hM
        | ok M =>
          cases hl : l.mapM (Atom.drhoOp I) with
          | error e => rw [ha, hl] at hM; cases hM
          | ok Ms' =>
            rw [ha, hl] at hM
            obtain rfl : M :: Ms' = Ms := Except.ok.inj hM
            rcases mem_cons.1 hmem with rfl | h
            · rw [hN'] at ha; rw [Except.ok.inj ha]; simp
            · exact mem_cons_of_mem _ (ih _ h hl)
    have hL : ∃ e, Op.toDenseL Ms = .error e := by
      clear hM
      induction Ms with
      | nil => simp at hNMs
      | cons M Ms ih =>
        rw [Op.toDenseL]
        cases hM : M.toDense with
        | error e => exact ⟨e, rfl⟩
        | ok d =>
          have : N ∈ Ms := by
            rcases mem_cons.1 hNMs with rfl | h
            · rw [hd] at hM; cases hM
            · exact h
          obtain ⟨e, he⟩ := ih this
          exact ⟨e, by show (Op.toDenseL Ms >>= _) = _; rw [he]; rfl⟩
    show ∃ e, ((Op.mkKronsum Ms >>= fun X => Op.conjPerm p.perm X) >>= fun X => X.densify) = .error e
    have hNa : N.asArr = none := by
      have : N = .smul (-1) (.tr (.jvp D)) := (Except.ok.inj hN).symm
      rw [this]; rfl
    obtain ⟨e, he⟩ := hL
    have hks : ∃ X, Op.mkKronsum Ms = .ok X ∧ X.asArr = none ∧ ∃ e, X.toDense = .error e := by
      unfold Op.mkKronsum
      split
      · simp at hNMs
      · exact ⟨_, rfl, rfl, .recursion, by rw [Op.toDense]⟩
      · obtain rfl : N = _ := by simpa using hNMs
        exact ⟨N, rfl, hNa, _, hd⟩
      · exact ⟨_, rfl, rfl, e, by rw [Op.toDense, he]; rfl⟩
    obtain ⟨X, hX, h1, h2⟩ := hks
    rw [hX]
    exact conjPerm_raises h1 h2 p.perm

/-- `V⊗D*` for a vector `V` and the dual `D*` of a one-dimensional representation. -/
example : ∃ e, (Rep.key (.fac (.prod ⟨[(.vec 0 none, 1), (.dual 1 none, 1)], [0, 1]⟩))).drhoDense
    ⟨fun k _ => if k = 0 then .arr (DMat.ofMatrix !![0, -1; 1, (0 : ℝ)]) else .jvp (DMat.ofMatrix (Matrix.of fun _ _ : Fin 1 => (2 : ℝ)))⟩ = .error e :=
  C103_counterexample_dual _ ⟨[(.vec 0 none, 1), (.dual 1 none, 1)], [0, 1]⟩ (k := 1) (g := none)
    (D := DMat.ofMatrix (Matrix.of fun _ _ : Fin 1 => (2 : ℝ))) rfl ⟨rfl, rfl⟩ (by decide)

end Verif
