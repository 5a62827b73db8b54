import Mathlib.Analysis.SpecialFunctions.Trigonometric.Deriv
import Mathlib.Analysis.SpecialFunctions.ExpDeriv
import Verif.Props.Dynamics

/-!
# Cases of C91, C92, C93: the harmonic oscillator and exponential decay

The hypotheses of the theorems on rollouts hold for these systems, with integrators that are exact.
-/
namespace Verif
open List Set

/-- `H = |z|²/2` -/
noncomputable def oscH (z : List ℝ) : ℝ := (z.map fun x => x ^ 2).sum / 2

theorem oscH_ofFn {n : ℕ} (v : Fin n → ℝ) : oscH (List.ofFn v) = (∑ i, v i ^ 2) / 2 := by
  rw [oscH, map_ofFn, List.sum_ofFn]; rfl

theorem osc_grad (n : ℕ) : IsGrad n oscH id := by
  intro x hx
  refine ⟨hx, ∑ i : Fin n, x.getD i 0 • ContinuousLinearMap.proj (R := ℝ) (φ := fun _ : Fin n => ℝ) i, ?_, fun v => by simp⟩
  have hp : ∀ (i : Fin n) (u : Fin n → ℝ), HasFDerivAt (fun v : Fin n → ℝ => v i) (ContinuousLinearMap.proj i : (Fin n → ℝ) →L[ℝ] ℝ) u := fun i u =>
    (ContinuousLinearMap.proj (R := ℝ) (φ := fun _ : Fin n => ℝ) i).hasFDerivAt
  have h := (HasFDerivAt.fun_sum fun (i : Fin n) (_ : i ∈ Finset.univ) => (hp i fun i : Fin n => x.getD i 0).pow 2).const_mul (1 / 2 : ℝ)
  refine (h.congr_fderiv ?_).congr_of_eventuallyEq (Filter.Eventually.of_forall fun v => ?_)
  · ext v
    simp only [ContinuousLinearMap.smul_apply, ContinuousLinearMap.sum_apply, ContinuousLinearMap.proj_apply, smul_eq_mul, Finset.mul_sum]
    refine Finset.sum_congr rfl fun i _ => ?_
    simp
    ring
  · beta_reduce
    rw [oscH_ofFn]
    ring

/-- The exact solution: `cos(s) z + sin(s) Jz` after the time `s`. -/
noncomputable def oscOdeint (d : ℕ) : Odeint := fun _ z0 ts =>
  ts.map fun t => List.ofFn fun i : Fin (d + d) => Real.cos (t - ts.headD 0) * z0.getD i 0 + Real.sin (t - ts.headD 0) * ((sympMat d).mulVec z0).getD i 0

theorem osc_field (d : ℕ) {x : List ℝ} (hx : x.length = d + d) (t : ℝ) : total (fun z _ => hamiltonianDynamics id z) x t = (sympMat d).mulVec x :=
  total_ok (osc_grad (d + d)) hx t

theorem sympMat_sq {d : ℕ} {x : List ℝ} (hx : x.length = d + d) : (sympMat d).mulVec ((sympMat d).mulVec x) = x.map fun a => -a := by
  have h := C84_JJ x (by omega)
  rw [symplecticForm_eq d x hx] at h
  have h : symplecticForm ((sympMat d).mulVec x) = _ := h
  rw [symplecticForm_eq d _ (by rw [DMat.length_mulVec]; rfl)] at h
  exact Except.ok.inj h

theorem osc_exact (d : ℕ) (ts : List ℝ) : (oscOdeint d).Exact (d + d) (total fun z _ => hamiltonianDynamics id z) ts := by
  intro _ z0 hz
  have hJ : (sympMat d).IsSq (d + d) := ⟨rfl, rfl⟩
  refine ⟨fun t i => Real.cos (t - ts.headD 0) * z0.getD i 0 + Real.sin (t - ts.headD 0) * ((sympMat d).mulVec z0).getD i 0, ?_, ?_, rfl⟩
  · simp only [sub_self, Real.cos_zero, Real.sin_zero, one_mul, zero_mul, add_zero]
    exact ofFn_getD hz
  · intro b hb t ht
    rw [hasDerivWithinAt_pi]
    intro i
    have e1 : HasDerivAt (fun t : ℝ => t - ts.headD 0) 1 t := (hasDerivAt_id t).sub_const _
    have h := (((Real.hasDerivAt_cos _).comp t e1).mul_const (z0.getD i 0)).add
      (((Real.hasDerivAt_sin _).comp t e1).mul_const (((sympMat d).mulVec z0).getD i 0))
    refine (h.hasDerivWithinAt).congr_deriv ?_
    unfold asMap
    beta_reduce
    rw [osc_field d (by simp), mulVec_ofFn hJ, getD_ofFn _ i]
    have k1 : ∑ j : Fin (d + d), (sympMat d).e i j * z0.getD j 0 = ((sympMat d).mulVec z0).getD i 0 := by
      rw [DMat.getD_mulVec (A := sympMat d) i.2]
      exact (Finset.sum_range fun j => (sympMat d).e i j * z0.getD j 0).symm
    have k2 : ∑ j : Fin (d + d), (sympMat d).e i j * ((sympMat d).mulVec z0).getD j 0 = - z0.getD i 0 := by
      have e : ((sympMat d).mulVec ((sympMat d).mulVec z0)).getD i 0 = - z0.getD i 0 := by
        rw [sympMat_sq hz]
        have hi : (i : ℕ) < z0.length := by rw [hz]; exact i.2
        rw [getD_eq_getElem _ _ (by rw [length_map]; exact hi), getD_eq_getElem _ _ hi, getElem_map]
      rw [← e, DMat.getD_mulVec (A := sympMat d) i.2]
      exact (Finset.sum_range fun j => (sympMat d).e i j * ((sympMat d).mulVec z0).getD j 0).symm
    simp only [mul_add, Finset.sum_add_distrib, mul_left_comm _ (Real.cos _), mul_left_comm _ (Real.sin _), ← Finset.mul_sum, k1, k2]
    ring

theorem osc_lipschitz (d : ℕ) : LocallyLipschitz (asMap (d + d) fun x => total (fun z _ => hamiltonianDynamics id z) x 0) := by
  have e : asMap (d + d) (fun x => total (fun z _ => hamiltonianDynamics id z) x 0) = fun (v : Fin (d + d) → ℝ) (i : Fin (d + d)) => ∑ j : Fin (d + d), (sympMat d).e i j * v j := by
    funext v i
    unfold asMap
    beta_reduce
    rw [osc_field d (by simp), mulVec_ofFn (n := d + d) (M := sympMat d) ⟨rfl, rfl⟩, getD_ofFn _ i]
  rw [e]
  let T : (Fin (d + d) → ℝ) →L[ℝ] (Fin (d + d) → ℝ) :=
    ContinuousLinearMap.pi fun i => ∑ j : Fin (d + d), (sympMat d).e i j • ContinuousLinearMap.proj (R := ℝ) (φ := fun _ : Fin (d + d) => ℝ) j
  have : (fun (v : Fin (d + d) → ℝ) (i : Fin (d + d)) => ∑ j : Fin (d + d), (sympMat d).e i j * v j) = T := by
    funext v i
    simp [T]
  rw [this]
  exact T.lipschitz.locallyLipschitz

theorem oscH_orth {n : ℕ} {M : DMat ℝ} (hM : M.IsSq n) (h : M.transpose.mul M = DMat.one n) (x : List ℝ) (hx : x.length = n) :
    oscH (M.mulVec x) = oscH x := by
  obtain ⟨v, rfl⟩ : ∃ v : Fin n → ℝ, List.ofFn v = x := ⟨_, ofFn_getD hx⟩
  rw [mulVec_ofFn hM, oscH_ofFn, oscH_ofFn]
  congr 1
  have e : ∀ j k : Fin n, ∑ i : Fin n, M.e i j * M.e i k = if j = k then 1 else 0 := by
    intro j k
    have := congrArg (fun A : DMat ℝ => A.e j k) h
    simp only [DMat.mul, DMat.transpose, DMat.of] at this
    simp only [DMat.one_e j.2 k.2] at this
    simp only [hM.1, hM.2, j.2, k.2, and_self, if_true] at this
    rw [Finset.sum_range] at this
    simp only [Fin.ext_iff]
    rw [← this]
    refine Finset.sum_congr rfl fun i _ => ?_
    simp [hM.1, hM.2]
  calc ∑ i : Fin n, (∑ j : Fin n, M.e i j * v j) ^ 2 = ∑ j : Fin n, ∑ k : Fin n, (∑ i : Fin n, M.e i j * M.e i k) * (v j * v k) := by
        simp only [sq, Finset.sum_mul_sum]
        simp only [Finset.sum_mul]
        rw [Finset.sum_comm]
        refine Finset.sum_congr rfl fun j _ => ?_
        rw [Finset.sum_comm]
        refine Finset.sum_congr rfl fun k _ => Finset.sum_congr rfl fun i _ => by ring
    _ = ∑ j : Fin n, v j ^ 2 := by
        simp only [e, ite_mul, one_mul, zero_mul, Finset.sum_ite_eq, Finset.mem_univ, if_true, sq]

/-! ## The cases -/

/-- C91, C92: an oscillator in `d` dimensions, an orthogonal matrix on positions and momenta, any increasing times. -/
example (d : ℕ) {A : DMat ℝ} (hA : A.IsSq d) (h : A.mul A.transpose = DMat.one d) (ts : List ℝ) (hts : Forward ts) (z0 : List ℝ) (hz : z0.length = d + d) :
    ∃ zs, hamiltonianFlow (oscOdeint d) id z0 ts = .ok zs ∧ zs.length = ts.length ∧
      hamiltonianFlow (oscOdeint d) id ((DMat.bdiag2 A A).mulVec z0) ts = .ok (zs.map (DMat.bdiag2 A A).mulVec) := by
  have hs := C91_symplectic hA hA h
  have hc : (DMat.bdiag2 A A).transpose.mul (DMat.bdiag2 A A) = DMat.one (d + d) := by
    have h' : A.transpose.mul A = DMat.one d := DMat.mul_eq_one_comm hA ⟨hA.2, hA.1⟩ h
    rw [DMat.transpose_bdiag2, DMat.bdiag2_mul _ _ _ _ rfl, h', DMat.bdiag2_one]
    rfl
  exact C92_hamiltonian (osc_grad _) hs (oscH_orth hs.1 hc) (osc_exact d ts) hts (osc_lipschitz d) hz

/-- C92, energy. -/
example (d : ℕ) (ts : List ℝ) (hts : Forward ts) (z0 : List ℝ) (hz : z0.length = d + d) : ∃ zs, hamiltonianFlow (oscOdeint d) id z0 ts = .ok zs ∧
    ∀ z ∈ zs, oscH z = oscH z0 :=
  ⟨_, by unfold hamiltonianFlow; rw [dynamics_ok (osc_grad _) hz]; rfl,
    C92_energy (osc_grad _) (osc_exact d ts) hts hz (by unfold hamiltonianFlow; rw [dynamics_ok (osc_grad _) hz]; rfl)⟩

/-- C92, angular momentum. -/
example (ts : List ℝ) (hts : Forward ts) (z0 : List ℝ) (hz : z0.length = 2 + 2) (zs : List (List ℝ)) (h : hamiltonianFlow (oscOdeint 2) id z0 ts = .ok zs) :
    ∀ z ∈ zs, z.getD 2 0 * z.getD 1 0 - z.getD 3 0 * z.getD 0 0 = z0.getD 2 0 * z0.getD 1 0 - z0.getD 3 0 * z0.getD 0 0 := by
  have hm := C92_momentum (osc_grad _) (osc_exact 2 ts) hts !![0, 1; -1, 0] (fun t q p => by
    have hX : -(Matrix.transpose !![(0 : ℝ), 1; -1, 0]) = !![0, 1; -1, 0] := by
      ext i j; fin_cases i <;> fin_cases j <;> simp
    have ho : Matrix.transpose (NormedSpace.exp (t • !![(0 : ℝ), 1; -1, 0])) * NormedSpace.exp (t • !![(0 : ℝ), 1; -1, 0]) = 1 := by
      rw [← Matrix.exp_transpose, Matrix.transpose_smul, show Matrix.transpose !![(0 : ℝ), 1; -1, 0] = -!![0, 1; -1, 0] from (neg_eq_iff_eq_neg.1 hX), smul_neg,
        Matrix.exp_neg]
      exact Matrix.nonsing_inv_mul _ ((Matrix.isUnit_iff_isUnit_det _).1 (Matrix.isUnit_exp _))
    have hn : ∀ v w : Fin 2 → ℝ, oscH (List.ofFn v ++ List.ofFn w) = (dot v v + dot w w) / 2 := by
      intro v w
      simp [oscH, dot, List.ofFn_succ, Fin.sum_univ_two]
      ring
    rw [hX, hn, hn, dot_orth ho, dot_orth ho]) hz h
  intro z hw
  have := hm z hw
  simp [momentum, Fin.sum_univ_two] at this
  simp
  linarith

/-- The rollouts of `z' = -z`. -/
noncomputable def decayOdeint : Odeint := fun _ z0 ts => ts.map fun t => z0.map fun x => Real.exp (ts.headD 0 - t) * x

theorem decay_exact {n : ℕ} {f : List ℝ → ℝ → List ℝ} (hf : ∀ x : List ℝ, x.length = n → f x 0 = x.map fun a => -a) (ts : List ℝ) : decayOdeint.Exact n f ts := by
  intro _ z0 hz
  have em : ∀ s : ℝ, (z0.map fun x => Real.exp s * x) = List.ofFn fun i : Fin n => Real.exp s * z0.getD i 0 := by
    intro s
    conv_lhs => rw [← ofFn_getD hz, map_ofFn]
    rfl
  refine ⟨fun t i => Real.exp (ts.headD 0 - t) * z0.getD i 0, ?_, ?_, ?_⟩
  · simp only [sub_self, Real.exp_zero, one_mul]
    exact ofFn_getD hz
  · intro b hb t ht
    rw [hasDerivWithinAt_pi]
    intro i
    have e1 : HasDerivAt (fun t : ℝ => ts.headD 0 - t) (-1) t := (hasDerivAt_id t).const_sub _
    refine (((Real.hasDerivAt_exp _).comp t e1).mul_const (z0.getD i 0)).hasDerivWithinAt.congr_deriv ?_
    unfold asMap
    beta_reduce
    rw [hf _ (by simp), map_ofFn, getD_ofFn _ i]
    simp
  · exact map_congr_left fun t _ => em _

theorem decay_lipschitz {n : ℕ} {f : List ℝ → List ℝ} (hf : ∀ x : List ℝ, x.length = n → f x = x.map fun a => -a) : LocallyLipschitz (asMap n f) := by
  have e : asMap n f = fun v => -v := by
    funext v i
    unfold asMap
    rw [hf _ (by simp), map_ofFn, getD_ofFn _ i]
    rfl
  rw [e]
  exact (LipschitzWith.id.neg).locallyLipschitz

/-- C92: `z' = -z` commutes with every matrix, and so do its rollouts. -/
example (n : ℕ) {M : DMat ℝ} (hM : M.IsSq n) (ts : List ℝ) (hts : Forward ts) (z0 : List ℝ) (hz : z0.length = n) :
    decayOdeint (fun z _ => z.map fun a => -a) (M.mulVec z0) ts = (decayOdeint (fun z _ => z.map fun a => -a) z0 ts).map M.mulVec :=
  C92_equivariant (decay_exact (fun _ _ => rfl) ts) hts (fun _ _ _ => rfl) (decay_lipschitz fun _ _ => rfl) hM
    (fun x hx => ⟨by rw [length_map, hx], by rw [mulVec_neg]⟩) hz

theorem flatten_rowsOf {n : ℕ} : ∀ (k : ℕ) (x : List ℝ), x.length = k * n → (rowsOf n k x).flatten = x := by
  intro k
  induction k with
  | zero => intro x hx; rw [Nat.zero_mul] at hx; rw [length_eq_zero_iff.1 hx]; rfl
  | succ k ih =>
    intro x hx
    rw [rowsOf, flatten_cons, ih _ (by rw [length_drop, hx]; simp [Nat.add_mul]), take_append_drop]

theorem rowsOf_neg {n k : ℕ} {x : List ℝ} (hx : x.length = k * n) : ((rowsOf n k x).map fun z => z.map fun a => -a).flatten = x.map fun a => -a := by
  rw [← map_flatten, flatten_rowsOf k x hx]

/-- C93: a batch of states of `z' = -z`. -/
example (n : ℕ) (ts : List ℝ) (hts : Forward ts) (z0 : List (List ℝ)) (hz : ∀ z ∈ z0, z.length = n) :
    bOdeFlow decayOdeint (fun z _ => .ok (z.map fun a => -a)) n z0 ts =
      .ok (z0.map fun z => decayOdeint (total fun z _ => .ok (z.map fun a => -a)) z ts) := by
  refine C93_batch hz (fun z t h => ⟨_, rfl, by rw [length_map, h]⟩) (fun _ _ _ => rfl) (decay_lipschitz fun _ _ => rfl) hts (decay_exact (fun _ _ => rfl) ts)
    (decay_exact (fun x hx => ?_) ts)
  exact rowsOf_neg hx

/-- C92: the `EMLPode` whose network is `z ↦ -z`. -/
example (n : ℕ) {M : DMat ℝ} (hM : M.IsSq n) (ts : List ℝ) (hts : Forward ts) (z0 : List (List ℝ)) (hz : ∀ z ∈ z0, z.length = n) :
    ∃ zs, bOdeFlow decayOdeint (odeNet fun z => .ok (z.map fun a => -a)) n z0 ts = .ok zs ∧ zs.length = z0.length ∧
      bOdeFlow decayOdeint (odeNet fun z => .ok (z.map fun a => -a)) n (z0.map M.mulVec) ts = .ok (zs.map fun traj => traj.map M.mulVec) :=
  C92_ode_network hM (fun x hx => ⟨_, rfl, by rw [length_map, hx], by rw [mulVec_neg]⟩) hz (decay_lipschitz fun _ _ => rfl) hts
    (decay_exact (fun _ _ => rfl) ts) (decay_exact (fun _ hx => rowsOf_neg hx) ts)

/-- `a x + b y` -/
def comb (a b : ℝ) (x y : List ℝ) : List ℝ := zipWith (fun u v => a * u + b * v) x y

/-- The rollouts of a linear field whose square is `-1`. -/
noncomputable def rotOdeint : Odeint := fun f z0 ts => ts.map fun t => comb (Real.cos (t - ts.headD 0)) (Real.sin (t - ts.headD 0)) z0 (f z0 0)

theorem comb_ofFn {n : ℕ} {a b : ℝ} {x y : List ℝ} (hx : x.length = n) (hy : y.length = n) : comb a b x y = List.ofFn fun i : Fin n => a * x.getD i 0 + b * y.getD i 0 := by
  refine ext_getElem (by simp [comb, hx, hy]) fun i h1 h2 => ?_
  have hi : i < n := by simpa using h2
  have e : (comb a b x y)[i] = a * x[i] + b * y[i] := getElem_zipWith
  rw [e, List.getElem_ofFn, getD_eq_getElem _ _ (by omega), getD_eq_getElem _ _ (by omega)]

theorem rot_exact {n : ℕ} {f : List ℝ → ℝ → List ℝ} (hlen : ∀ x : List ℝ, x.length = n → (f x 0).length = n)
    (hlin : ∀ a b (x y : List ℝ), x.length = n → y.length = n → f (comb a b x y) 0 = comb a b (f x 0) (f y 0))
    (hsq : ∀ x : List ℝ, x.length = n → f (f x 0) 0 = x.map fun a => -a) (ts : List ℝ) : rotOdeint.Exact n f ts := by
  intro _ z0 hz
  have hf := hlen z0 hz
  refine ⟨fun t i => Real.cos (t - ts.headD 0) * z0.getD i 0 + Real.sin (t - ts.headD 0) * (f z0 0).getD i 0, ?_, ?_, ?_⟩
  · simp only [sub_self, Real.cos_zero, Real.sin_zero, one_mul, zero_mul, add_zero]
    exact ofFn_getD hz
  · intro b hb t ht
    rw [hasDerivWithinAt_pi]
    intro i
    have e1 : HasDerivAt (fun t : ℝ => t - ts.headD 0) 1 t := (hasDerivAt_id t).sub_const _
    have h := (((Real.hasDerivAt_cos _).comp t e1).mul_const (z0.getD i 0)).add (((Real.hasDerivAt_sin _).comp t e1).mul_const ((f z0 0).getD i 0))
    refine h.hasDerivWithinAt.congr_deriv ?_
    unfold asMap
    beta_reduce
    rw [← comb_ofFn hz hf, hlin _ _ _ _ hz hf, hsq z0 hz, comb_ofFn hf (by rw [length_map, hz]), getD_ofFn _ i]
    rw [getD_eq_getElem (z0.map _) _ (by rw [length_map, hz]; exact i.2), getElem_map, getD_eq_getElem z0 _ (by rw [hz]; exact i.2)]
    ring
  · exact map_congr_left fun t _ => comb_ofFn hz hf

theorem mulVec_comb {n : ℕ} {A : DMat ℝ} (hA : A.IsSq n) (a b : ℝ) {x y : List ℝ} (hx : x.length = n) (hy : y.length = n) :
    A.mulVec (comb a b x y) = comb a b (A.mulVec x) (A.mulVec y) := by
  rw [comb_ofFn hx hy, comb_ofFn (n := n) (by rw [DMat.length_mulVec, hA.1]) (by rw [DMat.length_mulVec, hA.1]), mulVec_ofFn hA]
  refine congrArg _ (funext fun i => ?_)
  rw [DMat.getD_mulVec (by rw [hA.1]; exact i.2), DMat.getD_mulVec (by rw [hA.1]; exact i.2), hA.2, Finset.sum_range, Finset.sum_range, Finset.mul_sum, Finset.mul_sum,
    ← Finset.sum_add_distrib]
  exact Finset.sum_congr rfl fun j _ => by ring

/-- `rotOdeint` integrates harmonic oscillators, -/
theorem osc_rot_exact (d : ℕ) (ts : List ℝ) : rotOdeint.Exact (d + d) (total fun z _ => hamiltonianDynamics id z) ts := by
  have hJ : (sympMat d).IsSq (d + d) := ⟨rfl, rfl⟩
  have htot : ∀ x : List ℝ, x.length = d + d → total (fun z _ => hamiltonianDynamics id z) x 0 = (sympMat d).mulVec x := fun x hx => total_ok (osc_grad (d + d)) hx 0
  refine rot_exact (fun x hx => ?_) (fun a b x y hx hy => ?_) (fun x hx => ?_) ts
  · rw [htot x hx, DMat.length_mulVec]; rfl
  · rw [htot _ (by simp [comb, hx, hy]), htot x hx, htot y hy, mulVec_comb hJ _ _ hx hy]
  · rw [htot x hx, htot _ (by rw [DMat.length_mulVec]; rfl), sympMat_sq hx]

/-- and batches of them. -/
theorem osc_batch_exact (d k : ℕ) (ts : List ℝ) : rotOdeint.Exact (k * (d + d))
    (fun y t => ((rowsOf (d + d) k y).map fun z => total (fun z _ => hamiltonianDynamics id z) z t).flatten) ts := by
  have hJ : (sympMat d).IsSq (d + d) := ⟨rfl, rfl⟩
  have htot : ∀ x : List ℝ, x.length = d + d → total (fun z _ => hamiltonianDynamics id z) x 0 = (sympMat d).mulVec x := fun x hx => total_ok (osc_grad (d + d)) hx 0
  -- the batch of `k`
  have hF : ∀ (k : ℕ), ∃ F : List ℝ → List ℝ, (∀ x, F x = ((rowsOf (d + d) k x).map fun z => total (fun z _ => hamiltonianDynamics id z) z 0).flatten) ∧
      (∀ x : List ℝ, x.length = k * (d + d) → (F x).length = k * (d + d)) ∧
      (∀ a b (x y : List ℝ), x.length = k * (d + d) → y.length = k * (d + d) → F (comb a b x y) = comb a b (F x) (F y)) ∧
      (∀ x : List ℝ, x.length = k * (d + d) → F (F x) = x.map fun a => -a) := by
    intro k
    induction k with
    | zero =>
      refine ⟨fun _ => [], fun _ => rfl, fun _ _ => by simp, fun _ _ _ _ _ _ => rfl, fun x hx => ?_⟩
      rw [Nat.zero_mul] at hx
      rw [length_eq_zero_iff.1 hx]
      rfl
    | succ k ih =>
      obtain ⟨F, h1, h2, h3, h4⟩ := ih
      have hk : (k + 1) * (d + d) = (d + d) + k * (d + d) := by ring
      have ht : ∀ x : List ℝ, x.length = (k + 1) * (d + d) → (x.take (d + d)).length = d + d ∧ (x.drop (d + d)).length = k * (d + d) := by
        intro x hx
        rw [length_take, length_drop]
        omega
      refine ⟨fun x => total (fun z _ => hamiltonianDynamics id z) (x.take (d + d)) 0 ++ F (x.drop (d + d)), fun x => ?_, fun x hx => ?_, fun a b x y hx hy => ?_, fun x hx => ?_⟩
      · dsimp only
        rw [rowsOf, map_cons, flatten_cons, h1]
      · obtain ⟨l1, l2⟩ := ht x hx
        rw [length_append, htot _ l1, DMat.length_mulVec, h2 _ l2, hJ.1, hk]
      · obtain ⟨l1, l2⟩ := ht x hx
        obtain ⟨m1, m2⟩ := ht y hy
        have e1 : (comb a b x y).take (d + d) = comb a b (x.take (d + d)) (y.take (d + d)) := take_zipWith
        have e2 : (comb a b x y).drop (d + d) = comb a b (x.drop (d + d)) (y.drop (d + d)) := drop_zipWith
        have e3 : (comb a b (x.take (d + d)) (y.take (d + d))).length = d + d := by simp only [comb, length_zipWith, l1, m1, min_self]
        dsimp only
        rw [e1, e2, h3 _ _ _ _ l2 m2, htot _ e3, htot _ l1, htot _ m1, mulVec_comb hJ _ _ l1 m1]
        exact (zipWith_append (by rw [DMat.length_mulVec, DMat.length_mulVec])).symm
      · obtain ⟨l1, l2⟩ := ht x hx
        have l3 : ((sympMat d).mulVec (x.take (d + d))).length = d + d := by rw [DMat.length_mulVec]; rfl
        dsimp only
        rw [htot _ l1, take_append_of_le_length (by rw [l3]), drop_append_of_le_length (by rw [l3]), take_of_length_le (by rw [l3]), drop_of_length_le (by rw [l3]), nil_append,
          htot _ l3, h4 _ l2, sympMat_sq l1, ← map_append, take_append_drop]
  obtain ⟨F, h1, h2, h3, h4⟩ := hF k
  refine rot_exact (fun x hx => ?_) (fun a b x y hx hy => ?_) (fun x hx => ?_) ts
  · rw [← h1]; exact h2 x hx
  · rw [← h1, ← h1, ← h1]; exact h3 a b x y hx hy
  · rw [← h1, ← h1]; exact h4 x hx

/-- C93: a batch of harmonic oscillators. -/
example (d : ℕ) (ts : List ℝ) (hts : Forward ts) (z0 : List (List ℝ)) (hz : ∀ z ∈ z0, z.length = d + d) :
    ∃ zs, bHamiltonianFlow rotOdeint id (d + d) z0 ts = .ok zs ∧ zs.length = z0.length ∧
      ∀ b < z0.length, hamiltonianFlow rotOdeint id (z0.getD b []) ts = .ok (zs.getD b []) :=
  C93_hamiltonian (osc_grad (d + d)) hz (osc_lipschitz d) hts (osc_rot_exact d ts) (osc_batch_exact d _ ts)

end Verif
