import Verif.Props.Jvp
import Verif.Props.MatrixGroups
import Verif.Props.Solver
import Verif.Lemmas.OrthoDim

/-!
# C103: the user-defined representations of the documentation

docs/notebooks/4new_representations.ipynb defines the irreducible representations of `SO(2)` and the pseudoscalar by their `rho`, leaves `drho`
to the library, and reads off Schur's lemma from the bases that come out.
-/
namespace Verif
open List Matrix

theorem mats_so2 {a : Arr3 ℝ} (ha : soLie 2 = .ok a) : a.mats 2 = [so2Gen] := by
  have h : (soLie 2 : Py (Arr3 ℝ)) = _ := soLie_eq 2
  rw [ha] at h
  cases h
  have h := mats_tab 2 ((lowPairs 2).map (soSl (R := ℝ)))
  rw [length_map, lowPairs_length, List.map_map] at h
  rw [h, show lowPairs 2 = [(1, 0)] from rfl]
  refine congrArg (· :: []) ?_
  ext i j
  fin_cases i <;> fin_cases j <;> simp [soSl, Sl.mat, so2Gen, upd]

theorem commute_so2Gen {M : Matrix (Fin 2) (Fin 2) ℝ} (hM : Generated [so2Gen] [] M) : Commute M so2Gen := by
  induction hM with
  | one => exact Commute.one_left _
  | exp hA =>
    rename_i A
    have hA' : Commute A so2Gen := by
      induction hA using Submodule.span_induction with
      | mem x hx => rw [Set.mem_setOf_eq, mem_singleton] at hx; rw [hx]
      | zero => exact Commute.zero_left _
      | add x y _ _ h1 h2 => exact h1.add_left h2
      | smul c x _ h => exact h.smul_left c
    exact (exp_intertwine _ _ _ hA'.symm.eq).symm
  | gen h => simp at h
  | inv h => simp at h
  | mul _ _ h1 h2 => exact h1.mul_left h2

theorem commute_so2 {M N : Matrix (Fin 2) (Fin 2) ℝ} (hM : Generated [so2Gen] [] M) (hN : Generated [so2Gen] [] N) : Commute M N := by
  have form : ∀ {M : Matrix (Fin 2) (Fin 2) ℝ}, Commute M so2Gen → M = !![M 0 0, -M 1 0; M 1 0, M 0 0] := fun {M} h => by
    have h := h.eq
    have h1 := congrFun (congrFun h 0) 0
    have h2 := congrFun (congrFun h 0) 1
    simp [so2Gen, Matrix.mul_apply, Fin.sum_univ_two] at h1 h2
    ext i j
    fin_cases i <;> fin_cases j <;> simp <;> linarith
  rw [form (commute_so2Gen hM), form (commute_so2Gen hN)]
  show _ * _ = _ * _
  ext i j
  fin_cases i <;> fin_cases j <;> simp [Matrix.mul_apply, Fin.sum_univ_two] <;> ring

/-- **C103, `SO2Irreps(k)`.** For the generators of `SO(2)`, `rho(M) = M^k` meets the contract, although it is not multiplicative on all matrices:
the operator `drho(A)` that the library computes is `k*A`, and `rho` is orthogonal, as is asked of representations of an orthogonal group. -/
theorem C103_so2_irreps {a : Arr3 ℝ} (ha : soLie 2 = .ok a) (k : ℕ) : ∃ ψ : AtomRep ℝ 2 2, ψ.rho = (fun M => M ^ k) ∧ ψ.Hom (a.mats 2) [] ∧
    (∀ A : Matrix (Fin 2) (Fin 2) ℝ, defaultDrho (fun M => DMat.ofMatrix (M.toMatrix 2 2 ^ k)) (DMat.ofMatrix A) = .jvp (DMat.ofMatrix ((k : ℝ) • A))) ∧
    (∀ A, ψ.drho A = (k : ℝ) • A) ∧ ∀ M, Generated (a.mats 2) [] M → (ψ.rho M)ᵀ * ψ.rho M = 1 := by
  rw [mats_so2 ha]
  obtain ⟨ψ, h1, h2, h3⟩ := C103_contract (so2Irrep k) (one_pow k) (lie := [so2Gen]) (disc := [])
    (fun g h hg hh => (commute_so2 hg hh).mul_pow k) (so2Irrep_diff k)
  have hd : ∀ A, ψ.drho A = (k : ℝ) • A := fun A => by
    have e := h3 A
    unfold defaultDrho at e
    have e := Op.jvp.inj e
    ext i j
    have e' := congrArg (fun D : DMat ℝ => D.e i j) e
    beta_reduce at e'
    rw [DMat.ofMatrix_e _ i.2 j.2] at e'
    rw [← e']
    refine (DMat.of_e (m := 2) (n := 2) i.2 j.2).trans ?_
    have e2 : (fun t => (rhoLine (fun M => DMat.ofMatrix (so2Irrep k (M.toMatrix 2 2))) (DMat.ofMatrix A) t).e i j)
        = fun t : ℝ => so2Irrep k (1 + t • A) i j := funext fun t => rhoLine_e (so2Irrep k) A t i j
    rw [e2]
    have h4 := hasDerivAt_along (so2Irrep_diff k) A (c := fun t => 1 + t • A) (by simp) (hasDerivAt_line A) i j
    rw [h4.deriv]
    have h5 := hasDerivAt_along (so2Irrep_diff k) A (c := fun t => NormedSpace.exp (t • A)) (by simp) (hasDerivAt_exp_entries A) i j
    have h6 : (fun t : ℝ => so2Irrep k (NormedSpace.exp (t • A)) i j) = fun t : ℝ => NormedSpace.exp (t • ((k : ℝ) • A)) i j := funext fun t => by
      show (NormedSpace.exp (t • A) ^ k) i j = _
      rw [← Matrix.exp_nsmul, smul_comm t (k : ℝ) A, Nat.cast_smul_eq_nsmul]
    rw [h6] at h5
    exact h5.unique (hasDerivAt_pi.1 (hasDerivAt_pi.1 (hasDerivAt_exp_entries ((k : ℝ) • A)) i) j)
  refine ⟨ψ, h1, h2, fun A => (h3 A).trans (by rw [hd]), hd, fun M hM => ?_⟩
  have ho := transpose_form 1 (by simp) (lie := [so2Gen]) (disc := []) (fun A hA => by
    rw [mem_singleton.1 hA]
    ext i j
    fin_cases i <;> fin_cases j <;> simp [so2Gen]) (by simp) hM
  rw [Matrix.mul_one] at ho
  rw [h1]
  show (M ^ k)ᵀ * M ^ k = 1
  rw [Matrix.transpose_pow]
  have hc : Commute Mᵀ M := by
    show Mᵀ * M = M * Mᵀ
    rw [ho, mul_eq_one_comm.1 ho]
  rw [← hc.mul_pow, ho, one_pow]

/-- **C103, `PseudoScalar`.** The sign of the determinant is a representation of every group of invertible matrices and its `drho` is zero. -/
theorem C103_pseudoscalar (n : ℕ) (lie disc : List (Matrix (Fin n) (Fin n) ℝ)) : ∃ P : AtomRep ℝ n 1, P.rho = pseudoScalar n ∧ P.Hom lie disc ∧
    (∀ A : Matrix (Fin n) (Fin n) ℝ, defaultDrho (fun M => DMat.ofMatrix (pseudoScalar n (M.toMatrix n n))) (DMat.ofMatrix A) =
      .jvp (DMat.ofMatrix (0 : Matrix (Fin 1) (Fin 1) ℝ))) ∧
    ∀ A, P.drho A = 0 := by
  obtain ⟨P, h1, h2, h3⟩ := C103_contract (pseudoScalar n) (pseudoScalar_one n) (lie := lie) (disc := disc)
    (fun g h _ _ => pseudoScalar_mul n g h) (pseudoScalar_diff n)
  have hd : ∀ A, P.drho A = 0 := fun A => by
    ext i j
    have h5 := hasDerivAt_along (pseudoScalar_diff n) A (c := fun t => NormedSpace.exp (t • A)) (by simp) (hasDerivAt_exp_entries A) i j
    have h6 : ∀ t : ℝ, pseudoScalar n (NormedSpace.exp (t • A)) = 1 := fun t => by
      have : (NormedSpace.exp (t • A)) = NormedSpace.exp ((t / 2) • A) * NormedSpace.exp ((t / 2) • A) := by
        rw [← Matrix.exp_add_of_commute _ _ (Commute.refl _), ← add_smul, add_halves]
      have hu0 : IsUnit (NormedSpace.exp ((t / 2) • A)).det := (Matrix.isUnit_iff_isUnit_det _).1 (Matrix.isUnit_exp _)
      have hu : (NormedSpace.exp ((t / 2) • A)).det ≠ 0 := hu0.ne_zero
      ext i j
      fin_cases i; fin_cases j
      show ((SignType.sign (NormedSpace.exp (t • A)).det : SignType) : ℝ) = 1
      rw [this, Matrix.det_mul, sign_pos (mul_self_pos.2 hu)]; rfl
    simp only [h6] at h5
    have h7 := h5.unique (hasDerivAt_const _ _)
    have e := Op.jvp.inj (h3 A)
    have e' := congrArg (fun D : DMat ℝ => D.e i j) e
    beta_reduce at e'
    rw [DMat.ofMatrix_e _ i.2 j.2] at e'
    rw [← e']
    refine (DMat.of_e (m := 1) (n := 1) i.2 j.2).trans ?_
    have e2 : (fun t => (rhoLine (fun M => DMat.ofMatrix (pseudoScalar n (M.toMatrix n n))) (DMat.ofMatrix A) t).e i j)
        = fun t : ℝ => pseudoScalar n (1 + t • A) i j := funext fun t => rhoLine_e (pseudoScalar n) A t i j
    rw [e2]
    have h4 := hasDerivAt_along (pseudoScalar_diff n) A (c := fun t => 1 + t • A) (by simp) (hasDerivAt_line A) i j
    rw [h4.deriv]
    exact h7
  exact ⟨P, h1, h2, fun A => (h3 A).trans (by rw [hd]), hd⟩

/-! ### Schur's lemma -/

theorem schur_mulVec (p q : ℝ) (x : Fin 4 → ℝ) :
    (DMat.kronsum (DMat.ofMatrix (q • so2Gen)) (DMat.ofMatrix (p • so2Gen))).mulVec (List.ofFn x)
      = [-(q * x 2) - p * x 1, p * x 0 - q * x 3, q * x 0 - p * x 3, q * x 1 + p * x 2] := by
  have hsq : ∀ c : ℝ, (DMat.ofMatrix (c • so2Gen)).IsSq 2 := fun c => ⟨rfl, rfl⟩
  have he : ∀ {a b c d : ℕ} (ha : a < 2) (hb : b < 2) (hc : c < 2) (hd : d < 2),
      (DMat.kronsum (DMat.ofMatrix (q • so2Gen)) (DMat.ofMatrix (p • so2Gen))).e (a * 2 + b) (c * 2 + d)
        = q * so2Gen ⟨a, ha⟩ ⟨c, hc⟩ * (if b = d then 1 else 0) + (if a = c then 1 else 0) * (p * so2Gen ⟨b, hb⟩ ⟨d, hd⟩) := fun ha hb hc hd => by
    rw [DMat.kronsum_e (hsq q) (hsq p) ha hb hc hd, DMat.ofMatrix_e _ ha hc, DMat.ofMatrix_e _ hb hd]; rfl
  have hr : (DMat.kronsum (DMat.ofMatrix (q • so2Gen)) (DMat.ofMatrix (p • so2Gen))).rows = 4 := rfl
  have hc : (DMat.kronsum (DMat.ofMatrix (q • so2Gen)) (DMat.ofMatrix (p • so2Gen))).cols = 4 := rfl
  generalize DMat.kronsum (DMat.ofMatrix (q • so2Gen)) (DMat.ofMatrix (p • so2Gen)) = K at he hr hc ⊢
  have e00 := he (a := 0) (b := 0) (c := 0) (d := 0) (by norm_num) (by norm_num) (by norm_num) (by norm_num)
  have e01 := he (a := 0) (b := 0) (c := 0) (d := 1) (by norm_num) (by norm_num) (by norm_num) (by norm_num)
  have e02 := he (a := 0) (b := 0) (c := 1) (d := 0) (by norm_num) (by norm_num) (by norm_num) (by norm_num)
  have e03 := he (a := 0) (b := 0) (c := 1) (d := 1) (by norm_num) (by norm_num) (by norm_num) (by norm_num)
  have e10 := he (a := 0) (b := 1) (c := 0) (d := 0) (by norm_num) (by norm_num) (by norm_num) (by norm_num)
  have e11 := he (a := 0) (b := 1) (c := 0) (d := 1) (by norm_num) (by norm_num) (by norm_num) (by norm_num)
  have e12 := he (a := 0) (b := 1) (c := 1) (d := 0) (by norm_num) (by norm_num) (by norm_num) (by norm_num)
  have e13 := he (a := 0) (b := 1) (c := 1) (d := 1) (by norm_num) (by norm_num) (by norm_num) (by norm_num)
  have e20 := he (a := 1) (b := 0) (c := 0) (d := 0) (by norm_num) (by norm_num) (by norm_num) (by norm_num)
  have e21 := he (a := 1) (b := 0) (c := 0) (d := 1) (by norm_num) (by norm_num) (by norm_num) (by norm_num)
  have e22 := he (a := 1) (b := 0) (c := 1) (d := 0) (by norm_num) (by norm_num) (by norm_num) (by norm_num)
  have e23 := he (a := 1) (b := 0) (c := 1) (d := 1) (by norm_num) (by norm_num) (by norm_num) (by norm_num)
  have e30 := he (a := 1) (b := 1) (c := 0) (d := 0) (by norm_num) (by norm_num) (by norm_num) (by norm_num)
  have e31 := he (a := 1) (b := 1) (c := 0) (d := 1) (by norm_num) (by norm_num) (by norm_num) (by norm_num)
  have e32 := he (a := 1) (b := 1) (c := 1) (d := 0) (by norm_num) (by norm_num) (by norm_num) (by norm_num)
  have e33 := he (a := 1) (b := 1) (c := 1) (d := 1) (by norm_num) (by norm_num) (by norm_num) (by norm_num)
  simp [so2Gen] at e00 e01 e02 e03 e10 e11 e12 e13 e20 e21 e22 e23 e30 e31 e32 e33
  refine DMat.vec_ext (by rw [DMat.length_mulVec, hr]; rfl) fun i hi => ?_
  have hi : i < 4 := by rw [← hr]; simpa using hi
  rw [DMat.getD_mulVec (by rw [hr]; exact hi), hc]
  simp only [Finset.sum_range_succ, Finset.sum_range_zero]
  rw [show (List.ofFn x).getD 0 0 = x 0 by simp, show (List.ofFn x).getD 1 0 = x 1 by simp, show (List.ofFn x).getD 2 0 = x 2 by simp,
    show (List.ofFn x).getD 3 0 = x 3 by simp]
  rcases (by omega : i = 0 ∨ i = 1 ∨ i = 2 ∨ i = 3) with rfl | rfl | rfl | rfl
  · rw [e00, e01, e02, e03]; simp; ring
  · rw [e10, e11, e12, e13]; simp; ring
  · rw [e20, e21, e22, e23]; simp; ring
  · rw [e30, e31, e32, e33]; simp

/-- **C103, Schur's lemma.** Let `psi_p` and `psi_q` be two irreducible representations of `SO(2)` as the documentation defines them, of orders `p`
and `q`.  Then `(psi_p>>psi_q).equivariant_basis()` is empty unless `p = q`, and then it has two elements. -/
theorem C103_schur {W : World} {g : Gid} {N : ℕ} {gens : Gid → GenSet ℝ} {solve : ℕ → LinOp ℝ → Py (DMat ℝ)} (hW : W.SingleOK g N) (hN : 4 ≤ N)
    (ho : W.orth g = true) {k l : ℕ} (hk : W.asize k g = 2) (hl : W.asize l g = 2) (hd : GenSet.Dual W gens) {A : Interp ℝ}
    (hg : gens g = ⟨[], [A]⟩) {p q : ℕ} (hp : 0 < p) (hq : 0 < q) (h1 : (A.vec k (some g)).sem = DMat.ofMatrix ((p : ℝ) • so2Gen))
    (h2 : (A.vec l (some g)).sem = DMat.ofMatrix ((q : ℝ) • so2Gen)) (hsol : SolverOK W gens solve) (htot : SolverRuns W gens solve)
    (calls : List SolveCall) : ∃ r L, (Expr.rshift (.rep k) (.rep l)).eval W g = .ok r ∧
      (r.equivariantBasis W gens solve (session W gens solve calls freshSt)).1 = .ok L ∧ L.sem.cols = if p = q then 2 else 0 := by
  obtain ⟨r, L, h3, h4, h5⟩ := C21_expressions (W := W) (gens := gens) (solve := solve) hW (.rshift (.rep k) (.rep l))
    ⟨⟨by omega, .inr ho⟩, ⟨by omega, .inr ho⟩⟩ (by simp [Expr.bound, Expr.dim, hk, hl]; omega) hd hsol htot calls
  refine ⟨r, L, h3, h4, ?_⟩
  have hdim : (Expr.rshift (.rep k) (.rep l)).dim W g = 4 := by simp [Expr.dim, hk, hl]
  rw [hdim, hg] at h5
  have hA : A.DDual W := (hd g).2 A (by rw [hg]; simp)
  have hden : ((Expr.rshift (.rep k) (.rep l)).dden g A).1 = DMat.kronsum (DMat.ofMatrix ((q : ℝ) • so2Gen)) (DMat.ofMatrix ((p : ℝ) • so2Gen)) := by
    show DMat.kronsum (A.vec l (some g)).sem (A.dual k (some g)).sem = _
    rw [hA.dual, hA.orth k g ho, h1, h2]
  have hF : ∀ v : Fin 4 → ℝ, ((∀ x ∈ ([] : List (Interp ℝ)), ((Expr.rshift (.rep k) (.rep l)).den g x).1.mulVec (List.ofFn v) = List.ofFn v) ∧
      ∀ B ∈ [A], ((Expr.rshift (.rep k) (.rep l)).dden g B).1.mulVec (List.ofFn v) = replicate (List.ofFn v).length 0) ↔
      (q * v 2 = -(p * v 1) ∧ p * v 0 = q * v 3) ∧ (q * v 0 = p * v 3 ∧ q * v 1 = -(p * v 2)) := fun v => by
    simp only [not_mem_nil, false_imp_iff, implies_true, true_and, mem_singleton, forall_eq, hden, schur_mulVec, length_ofFn]
    simp only [replicate, cons.injEq, and_true]
    constructor
    · rintro ⟨a, b, c, d⟩; exact ⟨⟨by linarith, by linarith⟩, by linarith, by linarith⟩
    · rintro ⟨⟨a, b⟩, c, d⟩; exact ⟨by linarith, by linarith, by linarith, by linarith⟩
  have hp' : (0 : ℝ) < p := by exact_mod_cast hp
  have hq' : (0 : ℝ) < q := by exact_mod_cast hq
  split_ifs with hpq
  · subst hpq
    refine h5.cols_eq { toFun := fun b => ![b 0, -b 1, b 1, b 0], map_add' := fun b c => ?_, map_smul' := fun c b => ?_ } (fun b c hbc => ?_) fun v => ?_
    · ext i; fin_cases i <;> simp <;> ring
    · ext i; fin_cases i <;> simp
    · have e0 := congrFun hbc 0
      have e2 := congrFun hbc 2
      funext i
      fin_cases i
      · exact e0
      · exact e2
    · rw [hF]
      constructor
      · rintro ⟨⟨a, b⟩, c, d⟩
        refine ⟨![v 0, v 2], ?_⟩
        have a' : v 1 = -v 2 := by
          have : (p : ℝ) * (v 2 + v 1) = 0 := by linarith
          rcases mul_eq_zero.1 this with h | h <;> linarith
        have b' : v 0 = v 3 := mul_left_cancel₀ hp'.ne' b
        funext i
        fin_cases i <;> simp [a', b']
      · rintro ⟨b, rfl⟩
        simp
  · refine h5.cols_eq (c := 0) 0 (fun _ _ _ => Subsingleton.elim _ _) fun v => ?_
    rw [hF]
    constructor
    · rintro ⟨⟨a, b⟩, c, d⟩
      refine ⟨0, ?_⟩
      have hne : (q : ℝ) ^ 2 - (p : ℝ) ^ 2 ≠ 0 := by
        intro h
        have : ((q : ℝ) - p) * (q + p) = 0 := by linarith [h]
        rcases mul_eq_zero.1 this with h | h
        · exact hpq (by exact_mod_cast (sub_eq_zero.1 h).symm)
        · linarith
      have k0 : v 0 = 0 := by
        have : ((q : ℝ) ^ 2 - (p : ℝ) ^ 2) * v 0 = 0 := by linear_combination q * c - p * b
        exact (mul_eq_zero.1 this).resolve_left hne
      have k3 : v 3 = 0 := by
        have : ((q : ℝ) ^ 2 - (p : ℝ) ^ 2) * v 3 = 0 := by linear_combination p * c - q * b
        exact (mul_eq_zero.1 this).resolve_left hne
      have k1 : v 1 = 0 := by
        have : ((q : ℝ) ^ 2 - (p : ℝ) ^ 2) * v 1 = 0 := by linear_combination q * d - p * a
        exact (mul_eq_zero.1 this).resolve_left hne
      have k2 : v 2 = 0 := by
        have : ((q : ℝ) ^ 2 - (p : ℝ) ^ 2) * v 2 = 0 := by linear_combination q * a - p * d
        exact (mul_eq_zero.1 this).resolve_left hne
      funext i
      fin_cases i <;> simp [k0, k1, k2, k3]
    · rintro ⟨b, rfl⟩
      simp

/-- A process with the group `SO(2)` and `SO2Irreps(k)` for every `k`: the representation of kind `k` is `psi_k`. -/
def so2W : World := { exW with d := fun _ => 2, orth := fun _ => true, usize := fun _ _ => 2 }

theorem so2W_single : so2W.SingleOK 0 4 where
  pos := by norm_num
  inj _ _ _ _ h := exW_hash_inj h
  sG h hs := by simp [so2W, exW] at hs

/-- How the generator of `SO(2)` acts: on `V` as itself, on `psi_k` as `k` times itself. -/
noncomputable def so2I : Interp ℝ where
  vec k _ := .lazy (DMat.ofMatrix (((if k = 0 then 1 else k : ℕ) : ℝ) • so2Gen))
  dual k _ := .lazy (DMat.ofMatrix (((if k = 0 then 1 else k : ℕ) : ℝ) • so2Gen))

theorem so2I_dual : so2I.DDual so2W := by
  have h : ∀ c : ℝ, (DMat.ofMatrix (c • so2Gen)).transpose.neg = DMat.ofMatrix (c • so2Gen) := fun c => by
    rw [← DMat.ofMatrix_transpose]
    refine DMat.ext rfl rfl fun i j hi hj => ?_
    have hi : i < 2 := hi
    have hj : j < 2 := hj
    refine (DMat.of_e (m := 2) (n := 2) hi hj).trans ?_
    rw [DMat.ofMatrix_e _ hi hj, DMat.ofMatrix_e _ hi hj]
    rcases (by omega : i = 0 ∨ i = 1) with rfl | rfl <;> rcases (by omega : j = 0 ∨ j = 1) with rfl | rfl <;> simp [so2Gen]
  exact ⟨fun k g => ⟨by cases k <;> rfl, by cases k <;> rfl⟩, fun k g => (h _).symm, fun k g _ => h _⟩

/-- The cells of the documentation: `(psi1>>psi2).equivariant_basis()` is empty; `(psi2>>psi2)` has two elements. -/
example : ∃ (gens : Gid → GenSet ℝ) (solve : ℕ → LinOp ℝ → Py (DMat ℝ)), SolverOK so2W gens solve ∧
    (∃ r L, (Expr.rshift (.rep 1) (.rep 2)).eval so2W 0 = .ok r ∧ (r.equivariantBasis so2W gens solve freshSt).1 = .ok L ∧ L.sem.cols = 0) ∧
    ∃ r L, (Expr.rshift (.rep 2) (.rep 2)).eval so2W 0 = .ok r ∧ (r.equivariantBasis so2W gens solve freshSt).1 = .ok L ∧ L.sem.cols = 2 := by
  obtain ⟨s, h1, h2⟩ := exists_solver ℝ
  have hd : GenSet.Dual so2W (fun _ => ⟨[], [so2I]⟩) := fun g => ⟨by simp, by simpa using so2I_dual⟩
  refine ⟨fun _ => ⟨[], [so2I]⟩, fun _ => s, h1 _ _, ?_, ?_⟩
  · exact C103_schur (p := 1) (q := 2) so2W_single le_rfl rfl rfl rfl hd rfl (by norm_num) (by norm_num) (by simp [so2I, LinOp.sem]) (by simp [so2I, LinOp.sem])
      (h1 _ _) (fun _ _ C _ => h2 C) []
  · exact C103_schur (p := 2) (q := 2) so2W_single le_rfl rfl rfl rfl hd rfl (by norm_num) (by norm_num) (by simp [so2I, LinOp.sem]) (by simp [so2I, LinOp.sem])
      (h1 _ _) (fun _ _ C _ => h2 C) []

end Verif
